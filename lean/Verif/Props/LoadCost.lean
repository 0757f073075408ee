import Verif.Model.LoadCost
import Verif.Props.File
/-! # C99: the work of loading a file is linear in its length, whatever the file says -/
namespace Idx

/-! ## Without the count it is the decoder -/

/-- Without its count `dn` is `d`. -/
def Erases (dn : DeN α) (d : De α) : Prop := ∀ input, (dn input).1 = d input

namespace Erases
variable {α β : Type}

theorem bind {dn : DeN α} {d : De α} {fn : α → DeN β} {f : α → De β} (h : Erases dn d) (k : ∀ a, Erases (fn a) (f a)) :
    Erases (dn >>= fn) (d >>= f) := by
  intro input
  show (DeN.bind dn fn input).1 = (d input >>= fun p => f p.2 p.1)
  have h1 := h input
  unfold DeN.bind
  rcases hd : dn input with ⟨r, c⟩
  rw [hd] at h1
  simp only at h1
  rw [← h1]
  cases r with
  | ok p => exact k p.2 p.1
  | none => rfl
  | panic w => rfl

theorem pure (a : α) : Erases (Pure.pure a) (Pure.pure a) := fun _ => rfl

theorem prim (d : De α) : Erases (DeN.prim d) d := fun _ => rfl

theorem free (d : De α) : Erases (DeN.free d) d := fun _ => rfl

theorem tick {k : Nat} {dn : DeN α} {d : De α} (h : Erases dn d) : Erases (DeN.tick k >>= fun _ => dn) d := h

theorem times {dn : DeN α} {d : De α} (h : Erases dn d) : ∀ n, Erases (DeN.times n dn) (De.times n d)
  | 0 => pure _
  | n + 1 => h.bind fun _ => tick ((times h n).bind fun _ => pure _)

theorem timesFrom {dn : Nat → DeN α} {d : Nat → De α} (h : ∀ i, Erases (dn i) (d i)) :
    ∀ n i, Erases (DeN.timesFrom n i dn) (De.timesFrom n i d)
  | 0, _ => pure _
  | n + 1, i => (h i).bind fun _ => tick ((timesFrom h n (i + 1)).bind fun _ => pure _)

theorem vec {dn : DeN α} {d : De α} (t : Target) (h : Erases dn d) : Erases (deVecN t dn) (deVec t d) :=
  (prim _).bind fun n => times h n

theorem str (t : Target) : Erases (deStrN t) (deStr t) := by
  refine (prim _).bind fun len input => ?_
  unfold deStrBody
  split
  · split <;> rename_i h <;> simp [h]
  · rfl

theorem map [DecidableEq K] {t : Target} {kn : DeN K} {k : De K} {vn : DeN V} {v : De V} (hk : Erases kn k) (hv : Erases vn v) :
    Erases (deMapN t kn vn) (deMap t k v) :=
  (prim _).bind fun n => (times (hk.bind fun _ => hv.bind fun _ => pure _) n).bind fun _ => pure _

theorem array {dn : DeN α} {d : De α} (t : Target) (n : Nat) (h : Erases dn d) : Erases (deArrayN t n dn) (deArray t n d) := by
  refine (prim _).bind fun len => ?_
  split
  · exact times h n
  · exact free _

theorem deltas (t : Target) : ∀ n p, Erases (deDeltasN t n p) (deDeltas t n p)
  | 0, _ => pure _
  | n + 1, _ => (prim _).bind fun _ => (free _).bind fun item => tick ((deltas t n (some item)).bind fun _ => pure _)

theorem productSeq (t : Target) (existing : List Product) : Erases (deProductSeqN t existing) (deProductSeq t existing) :=
  Erases.bind ((prim _).bind fun n => deltas t n none) fun _ => tick ((free _).bind fun _ => pure _)

theorem vendors (t : Target) : Erases (deVendorsN t) (deVendors t) :=
  (prim _).bind fun n => (timesFrom (fun _ => (str t).bind fun _ => tick (pure _)) n 0).bind fun _ => pure _

theorem product (t : Target) (sid : Nat) (vm : VendorManager) : Erases (deProductN t sid vm) (deProduct t sid vm) :=
  (str t).bind fun _ => (str t).bind fun _ => (str t).bind fun _ => (prim _).bind fun _ => tick ((free _).bind fun _ => pure _)

theorem feature (t : Target) : Erases (deFeatureN t) (deFeature t) := by
  refine (prim _).bind fun id => ?_
  split
  · exact (vec t (str t)).bind fun _ => pure _
  · split
    · exact (vec t (prim _)).bind fun _ => pure _
    · split
      · exact (vec t (prim _)).bind fun _ => pure _
      · exact free _

theorem container (t : Target) : Erases (deContainerN t) (deContainer t) :=
  (vendors t).bind fun vm => (prim _).bind fun n => (timesFrom (fun i => product t i vm) n 0).bind fun _ =>
    (map (str t) (feature t)).bind fun _ => pure _

theorem catOption (t : Target) (existing : List Product) (i : Nat) : Erases (deCatOptionN t existing i) (deCatOption t existing i) :=
  (str t).bind fun _ => (productSeq t existing).bind fun _ => tick (pure _)

theorem tags (t : Target) (existing : List Product) : Erases (deTagsN t existing) (deTags t existing) :=
  (prim _).bind fun n => timesFrom (fun _ => (str t).bind fun _ => (productSeq t existing).bind fun _ => tick (pure _)) n 0

theorem category (t : Target) (existing : List Product) (i : Nat) : Erases (deCategoryN t existing i) (deCategory t existing i) :=
  (prim _).bind fun _ => (str t).bind fun _ => (prim _).bind fun n =>
    (timesFrom (fun j => catOption t existing j) n i).bind fun _ => pure _

theorem categoriesLoop (t : Target) (existing : List Product) :
    ∀ n i, Erases (deCategoriesLoopN t existing n i) (deCategoriesLoop t existing n i)
  | 0, _ => pure _
  | n + 1, i => (category t existing i).bind fun _ => tick ((categoriesLoop t existing n _).bind fun _ => pure _)

theorem classic (t : Target) (c : Container) : Erases (deClassicN t c) (deClassic t c) :=
  Erases.bind ((prim _).bind fun n => categoriesLoop t c.products n 0) fun _ => (tags t c.products).bind fun _ =>
    Erases.bind (map (str t) (vec t (prim _))) fun _ => pure _

theorem node (t : Target) : ∀ fuel, Erases (deNodeN t fuel) (deNode t fuel)
  | 0 => free _
  | fuel + 1 => (prim _).bind fun _ => (prim _).bind fun _ => (vec t (node t fuel)).bind fun _ => tick (pure _)

theorem gramIndex (t : Target) (n : Nat) : Erases (deGramIndexN t n) (deGramIndex t n) :=
  (container t).bind fun c => (map (prim _) (fun input => node t (input.length + 1) input)).bind fun _ => (prim _).bind fun len =>
    (times (Erases.bind (array t n (prim _)) fun _ => (productSeq t c.products).bind fun _ => pure _) len).bind fun _ => pure _

end Erases

/-! ## Counting -/

/-- Every successful read takes between one and ten bytes. -/
def Small (d : De α) : Prop := ∀ input rest a, d input = .ok (rest, a) → rest.length < input.length ∧ input.length ≤ rest.length + 10

/-- With `c` steps saved up, `d` needs at most four steps for each byte it takes and saves `credit` of them; and ten times its
steps cover the bytes it takes. Whatever the outcome, it needs at most four steps for each byte there is, the saved ones and one
more. -/
structure Spend (c : Nat) (credit : α → Nat) (d : DeN α) : Prop where
  ok : ∀ input rest a k, d input = (.ok (rest, a), k) →
    rest.length ≤ input.length ∧ k + credit a + 4 * rest.length ≤ 4 * input.length + c ∧ input.length ≤ rest.length + 10 * k
  all : ∀ input, (d input).2 ≤ 4 * input.length + c + 1

namespace Spend
variable {α β : Type} {c : Nat}

theorem weaken {d : DeN α} {cr cr' : α → Nat} (h : Spend c cr d) (i : ∀ a, cr' a ≤ cr a) : Spend c cr' d :=
  ⟨fun input rest a k e => by have := h.ok input rest a k e; have := i a; omega, h.all⟩

theorem frame {d : DeN α} {cr : α → Nat} (h : Spend c cr d) (x : Nat) : Spend (c + x) (fun a => cr a + x) d :=
  ⟨fun input rest a k e => by have := h.ok input rest a k e; omega, fun input => by have := h.all input; omega⟩

theorem bind {d : DeN α} {f : α → DeN β} {cr : α → Nat} {cr' : β → Nat} (h : Spend c cr d) (k : ∀ a, Spend (cr a) cr' (f a)) :
    Spend c cr' (d >>= f) := by
  have unf : ∀ input, (d >>= f) input = DeN.bind d f input := fun _ => rfl
  constructor
  · intro input rest b n e
    rw [unf, DeN.bind] at e
    rcases hd : d input with ⟨r, m⟩
    rw [hd] at e
    cases r with
    | none => cases e
    | panic w => cases e
    | ok p =>
      simp only [Prod.mk.injEq] at e
      have h1 := h.ok _ _ _ _ hd
      have h2 := (k p.2).ok p.1 rest b (f p.2 p.1).2 (Prod.ext e.1 rfl)
      omega
  · intro input
    rw [unf, DeN.bind]
    have ha := h.all input
    rcases hd : d input with ⟨r, m⟩
    rw [hd] at ha
    cases r with
    | none => exact ha
    | panic w => exact ha
    | ok p =>
      have h1 := h.ok _ _ _ _ hd
      have h2 := (k p.2).all p.1
      simp only at h2 ⊢
      omega

theorem pure {a : α} {cr : α → Nat} (h : cr a ≤ c) : Spend c cr (Pure.pure a) := by
  constructor
  · intro input rest b k e
    have e : ((.ok (input, a), 0) : Res (Bytes × α) × Nat) = (.ok (rest, b), k) := e
    simp only [Prod.mk.injEq, Res.ok.injEq] at e
    obtain ⟨⟨rfl, rfl⟩, rfl⟩ := e
    omega
  · intro input; exact Nat.zero_le _

/-- A number read: three of the four steps for its first byte are saved. -/
theorem prim {d : De α} (h : Small d) : Spend c (fun _ => c + 3) (DeN.prim d) := by
  constructor
  · intro input rest a k e
    simp only [DeN.prim, Prod.mk.injEq] at e
    have := h _ _ _ e.1
    omega
  · intro input
    show 1 ≤ _
    omega

/-- Something computed from what was read leaves the input alone. -/
theorem lift {r : Res α} {cr : α → Nat} (h : ∀ a, cr a ≤ c) : Spend c cr (DeN.free (De.lift r)) := by
  constructor
  · intro input rest b k e
    simp only [DeN.free, Prod.mk.injEq, De.lift_apply, Res.bind_eq_ok] at e
    obtain ⟨⟨a, _, e⟩, rfl⟩ := e
    simp only [Res.ok.injEq, Prod.mk.injEq] at e
    obtain ⟨rfl, rfl⟩ := e
    have := h a
    omega
  · intro input; exact Nat.zero_le _

theorem fail {cr : α → Nat} : Spend c cr (DeN.free De.fail) :=
  ⟨fun input rest b k e => by simp [DeN.free] at e, fun _ => Nat.zero_le _⟩

theorem tick {k : Nat} {d : DeN α} {cr : α → Nat} (h : Spend c cr d) : Spend (c + k) cr (DeN.tick k >>= fun _ => d) := by
  refine bind (cr := fun _ => c) ?_ fun _ => h
  constructor
  · intro input rest b n e
    simp only [DeN.tick, Prod.mk.injEq, Res.ok.injEq] at e
    obtain ⟨⟨rfl, _⟩, rfl⟩ := e
    omega
  · intro input
    show k ≤ _
    omega

theorem tick_of {k : Nat} {d : DeN α} {cr : α → Nat} (c' : Nat) (hc : c' + k ≤ c) (h : Spend c' cr d) :
    Spend c cr (DeN.tick k >>= fun _ => d) := by
  have := (tick (k := k) h).frame (c - (c' + k))
  rw [show c' + k + (c - (c' + k)) = c by omega] at this
  exact this.weaken fun _ => by omega

/-- A loop whose elements save `e + 1` steps saves `e` for each, as the push takes one. -/
theorem times {d : DeN α} {e : Nat} (h : Spend 0 (fun _ => e + 1) d) :
    ∀ n c, Spend c (fun l => c + e * l.length) (DeN.times n d)
  | 0, c => pure (by simp)
  | n + 1, c => by
    have h1 := h.frame c
    rw [Nat.zero_add] at h1
    refine h1.bind fun a => ?_
    refine tick_of (c + e) (by omega) ((times h n (c + e)).bind fun l => pure ?_)
    simp only [List.length_cons, Nat.mul_add]; omega

theorem timesFrom {d : Nat → DeN α} {e : Nat} (h : ∀ i, Spend 0 (fun _ => e + 1) (d i)) :
    ∀ n i c, Spend c (fun l => c + e * l.length) (DeN.timesFrom n i d)
  | 0, _, c => pure (by simp)
  | n + 1, i, c => by
    have h1 := (h i).frame c
    rw [Nat.zero_add] at h1
    refine h1.bind fun a => ?_
    refine tick_of (c + e) (by omega) ((timesFrom h n (i + 1) (c + e)).bind fun l => pure ?_)
    simp only [List.length_cons, Nat.mul_add]; omega

end Spend

/-! ### Primitives -/

theorem Small.bind_keep {d : De α} {f : α → De β} (h : Small d) (k : ∀ a input rest b, f a input = .ok (rest, b) → rest = input) :
    Small (d >>= f) := by
  intro input rest b e
  rw [De.bind_apply, Res.bind_eq_ok] at e
  obtain ⟨⟨r, a⟩, h1, h2⟩ := e
  rw [k a r rest b h2]
  exact h _ _ _ h1

theorem deU64Loop_eaten : ∀ (input : Bytes) (out : UInt64) (eaten : Nat) (r : Bytes) (o : UInt64) (e : Nat),
    deU64Loop input out eaten = some (r, o, e) → eaten ≤ 9 → e ≤ 9 := by
  intro input
  induction input with
  | nil =>
    intro out eaten r o e h he
    simp only [deU64Loop, Option.some.injEq, Prod.mk.injEq] at h
    omega
  | cons b input ih =>
    intro out eaten r o e h he
    unfold deU64Loop at h
    split at h
    · simp only at h
      split at h
      · simp only [Option.some.injEq, Prod.mk.injEq] at h
        omega
      · split at h
        · cases h
        · exact ih _ _ _ _ _ h (by omega)
    · simp only [Option.some.injEq, Prod.mk.injEq] at h
      omega

theorem small_u64 : Small deU64 := by
  intro input rest a h
  refine ⟨(deU64_spec h).2, ?_⟩
  unfold deU64 at h
  split at h
  · cases h
  · rename_i input' out eaten he
    obtain ⟨pre, h1, h2⟩ := deU64Loop_spec _ _ _ _ _ _ he
    have h3 := deU64Loop_eaten _ _ _ _ _ _ he (by omega)
    split at h
    · simp only at h
      split at h
      · cases h
      · simp only [Res.ok.injEq, Prod.mk.injEq] at h
        rw [← h.1, h1]; simp; omega
    · split at h
      · cases h
      · simp only [Res.ok.injEq, Prod.mk.injEq] at h
        rw [← h.1, h1]; simp; omega

theorem keep_ite {p : Prop} [Decidable p] {a : α} {input rest : Bytes} {b : α}
    (h : (if p then (pure a : De α) else De.fail) input = .ok (rest, b)) : rest = input := by
  split at h
  · simp only [De.pure_apply, Res.ok.injEq, Prod.mk.injEq] at h; exact h.1.symm
  · simp at h

theorem keep_lift {r : Res α} {input rest : Bytes} {b : α} (h : De.lift r input = .ok (rest, b)) : rest = input := by
  rw [De.lift_apply, Res.bind_eq_ok] at h
  obtain ⟨a, _, h⟩ := h
  simp only [Res.ok.injEq, Prod.mk.injEq] at h
  exact h.1.symm

theorem small_usize (t : Target) : Small (deUsize t) := small_u64.bind_keep fun _ _ _ _ h => keep_ite h

theorem small_u32 : Small deU32 := small_u64.bind_keep fun _ _ _ _ h => keep_ite h

theorem small_char : Small deChar := small_u32.bind_keep fun _ _ _ _ h => keep_lift h

theorem small_len (t : Target) (what : String) : Small (deLen t what) := by
  refine (small_usize t).bind_keep fun n input rest b h => ?_
  rw [De.bind_apply, Res.bind_eq_ok] at h
  obtain ⟨⟨r, u⟩, h1, h2⟩ := h
  have := keep_lift h1
  simp only [De.pure_apply, Res.ok.injEq, Prod.mk.injEq] at h2
  rw [← h2.1]; exact this

theorem small_f32 : Small deF32 := by
  intro input rest a h
  unfold deF32 at h
  split at h
  · simp only [Res.ok.injEq, Prod.mk.injEq] at h
    rw [← h.1]; simp; omega
  · cases h

theorem small_bool : Small deBool := by
  intro input rest a h
  unfold deBool at h
  split at h
  · cases h
  · simp only [Res.ok.injEq, Prod.mk.injEq] at h
    rw [← h.1]; simp

theorem small_u8 : Small deU8 := by
  intro input rest a h
  unfold deU8 at h
  split at h
  · cases h
  · simp only [Res.ok.injEq, Prod.mk.injEq] at h
    rw [← h.1]; simp

/-! ### The parts of the file -/

namespace Spend
variable {α β : Type} {c : Nat}

theorem vec {t : Target} {d : DeN α} {e : Nat} (h : Spend 0 (fun _ => e + 1) d) :
    Spend c (fun l => c + 3 + e * l.length) (deVecN t d) :=
  (prim (small_len t _)).bind fun n => times h n (c + 3)

theorem strBody (len : Nat) : Spend c (fun _ => c) (deStrBody len) := by
  constructor
  · intro input rest a k e
    unfold deStrBody at e
    split at e
    · split at e
      · simp only [Prod.mk.injEq, Res.ok.injEq] at e
        obtain ⟨⟨rfl, _⟩, rfl⟩ := e
        simp only [List.length_drop]
        omega
      · cases e
    · cases e
  · intro input
    unfold deStrBody
    split
    · split <;> simp only <;> omega
    · exact Nat.zero_le _

theorem str {t : Target} : Spend c (fun _ => c + 3) (deStrN t) := (prim (small_usize t)).bind fun len => strBody len

theorem map [DecidableEq K] {t : Target} {dk : DeN K} {dv : DeN V} {x : Nat} (hk : Spend 0 (fun _ => x) dk)
    (hv : Spend x (fun _ => 1) dv) : Spend c (fun _ => c + 3) (deMapN t dk dv) :=
  (prim (small_len t _)).bind fun n =>
    (times (e := 0) (hk.bind fun _ => hv.bind fun _ => pure (Nat.le_refl _)) n (c + 3)).bind fun _ => pure (by omega)

theorem array {t : Target} {n : Nat} {d : DeN α} (h : Spend 0 (fun _ => 1) d) : Spend c (fun _ => c + 3) (deArrayN t n d) := by
  refine (prim (small_usize t)).bind fun len => ?_
  split
  · exact (times (e := 0) h n (c + 3)).weaken fun _ => by omega
  · exact lift fun _ => Nat.le_refl _

theorem deltas {t : Target} : ∀ n p c, Spend c (fun l => c + 2 * l.length) (deDeltasN t n p)
  | 0, _, c => pure (by simp)
  | n + 1, p, c => by
    refine (prim (small_usize t)).bind fun parsed => bind (cr := fun _ => c + 3) ?_ fun item => ?_
    · cases p with
      | none => exact pure (Nat.le_refl _)
      | some q => exact lift fun _ => Nat.le_refl _
    · refine tick_of (c + 2) (by omega) ((deltas n (some item) (c + 2)).bind fun l => pure ?_)
      simp only [List.length_cons]; omega

theorem lookups_le (existing : List Product) : ∀ ids : List Nat, lookups existing ids ≤ ids.length
  | [] => Nat.le_refl _
  | id :: ids => by
    have := lookups_le existing ids
    unfold lookups
    split
    · simp only [List.length_cons]; omega
    · simp only [List.length_cons]; omega

theorem productSeq {t : Target} {existing : List Product} : Spend c (fun r => c + 3 + r.2.length) (deProductSeqN t existing) := by
  refine bind (cr := fun l => c + 3 + 2 * l.length) ((prim (small_len t _)).bind fun n => deltas n none (c + 3)) fun ids => ?_
  have := lookups_le existing ids
  refine tick_of (c + 3 + ids.length) (by omega) ((lift (cr := fun _ => c + 3 + ids.length) fun _ => Nat.le_refl _).bind fun ps => ?_)
  exact pure (Nat.le_refl _)

theorem vendors {t : Target} : Spend c (fun _ => c + 3) (deVendorsN t) :=
  (prim (small_len t _)).bind fun n =>
    (timesFrom (e := 0) (fun _ => str.bind fun _ => tick_of 1 (by omega) (pure (Nat.le_refl _))) n 0 (c + 3)).bind fun _ =>
      pure (by omega)

theorem product {t : Target} {sid : Nat} {vm : VendorManager} : Spend 0 (fun _ => 1) (deProductN t sid vm) :=
  str.bind fun _ => str.bind fun _ => str.bind fun _ => (prim (small_usize t)).bind fun _ =>
    tick_of 1 (by omega) ((lift (cr := fun _ => 1) fun _ => Nat.le_refl _).bind fun _ => pure (Nat.le_refl _))

theorem feature {t : Target} : Spend c (fun _ => c + 3) (deFeatureN t) := by
  refine (prim small_u8).bind fun id => ?_
  split
  · exact (vec (e := 0) (str.weaken fun _ => by omega)).bind fun _ => pure (by omega)
  · split
    · exact (vec (e := 0) ((prim small_f32).weaken fun _ => by omega)).bind fun _ => pure (by omega)
    · split
      · exact (vec (e := 0) ((prim small_u32).weaken fun _ => by omega)).bind fun _ => pure (by omega)
      · exact fail

theorem container {t : Target} : Spend c (fun _ => c) (deContainerN t) :=
  vendors.bind fun vm => (prim (small_usize t)).bind fun n => (timesFrom (e := 0) (fun _ => product) n 0 _).bind fun _ =>
    (map (x := 3) (str.weaken fun _ => by omega) (feature.weaken fun _ => by omega)).bind fun _ => pure (by omega)

theorem tags {t : Target} {existing : List Product} : Spend c (fun _ => c) (deTagsN t existing) :=
  (prim (small_len t _)).bind fun n => (timesFrom (e := 0) (fun _ => str.bind fun _ => productSeq.bind fun r =>
    tick_of 1 (by omega) (pure (Nat.le_refl _))) n 0 _).weaken fun _ => by omega

theorem catOption {t : Target} {existing : List Product} {sid : Nat} : Spend 0 (fun _ => 1) (deCatOptionN t existing sid) :=
  str.bind fun _ => productSeq.bind fun r => tick_of 1 (by omega) (pure (Nat.le_refl _))

theorem category {t : Target} {existing : List Product} {next : Nat} : Spend 0 (fun _ => 1) (deCategoryN t existing next) :=
  (prim small_bool).bind fun _ => str.bind fun _ => (prim (small_len t _)).bind fun n =>
    (timesFrom (e := 0) (fun _ => catOption) n next _).bind fun _ => pure (by omega)

theorem categoriesLoop {t : Target} {existing : List Product} : ∀ n next c, Spend c (fun _ => c) (deCategoriesLoopN t existing n next)
  | 0, _, c => pure (Nat.le_refl _)
  | n + 1, next, c => by
    have h1 := (category (t := t) (existing := existing) (next := next)).frame c
    rw [Nat.zero_add] at h1
    exact h1.bind fun cat => tick_of c (by omega) ((categoriesLoop n _ c).bind fun _ => pure (Nat.le_refl _))

theorem classic {t : Target} {ct : Container} : Spend c (fun _ => c) (deClassicN t ct) :=
  bind (cr := fun _ => c) (((prim (small_len t _)).bind fun n => categoriesLoop n 0 (c + 3)).weaken fun _ => by omega) fun _ =>
    tags.bind fun _ => (map (x := 3) (str.weaken fun _ => by omega) ((vec (e := 0) ((prim (small_usize t)).weaken
      fun _ => by omega)).weaken fun _ => by omega)).bind fun _ => pure (by omega)

theorem node {t : Target} : ∀ fuel, Spend 0 (fun _ => 2) (deNodeN t fuel)
  | 0 => fail
  | fuel + 1 => (prim small_char).bind fun _ => (prim small_f32).bind fun _ => (vec (e := 1) (node fuel)).bind fun l =>
      tick_of 2 (by omega) (pure (Nat.le_refl _))

theorem nodeTop {t : Target} : Spend 0 (fun _ => 2) (deNodeTopN t) :=
  ⟨fun input rest a k e => (node (input.length + 1)).ok input rest a k e, fun input => (node (input.length + 1)).all input⟩

theorem posting {t : Target} {n : Nat} {ct : Container} : Spend 0 (fun _ => 1) (dePostingN t n ct) :=
  (array ((prim small_char).weaken fun _ => by omega)).bind fun _ => productSeq.bind fun _ => pure (by omega)

theorem gramIndex {t : Target} {n : Nat} : Spend c (fun _ => c) (deGramIndexN t n) :=
  container.bind fun ct => (map (x := 0) ((prim small_char).weaken fun _ => by omega) (nodeTop.weaken fun _ => by omega)).bind fun _ =>
    (prim (small_len t _)).bind fun len => (times (e := 0) posting len _).bind fun _ => pure (by omega)

theorem all' {t : Target} {n : Nat} : Spend 0 (fun _ => 0) (deserializeAllN t n) :=
  gramIndex.bind fun _ => classic.bind fun _ => pure (Nat.le_refl _)

end Spend

/-! ## C99 -/

/-- C99 (what is counted): `deserializeAllN` is `deserialize_all` with a count and the bytes left over: same index, same `None`,
same panic, on every input. -/
theorem C99_erase (t : Target) (n : Nat) (bytes : Bytes) :
    deserializeAll t n bytes = ((deserializeAllN t n bytes).1 >>= fun p => .ok p.2) := by
  have h : Erases (deserializeAllN t n) (do
      let ngram ← deGramIndex t n
      let classic ← deClassic t ngram.container
      pure (ngram, classic)) :=
    (Erases.gramIndex t n).bind fun ix => (Erases.classic t ix.container).bind fun _ => Erases.pure _
  rw [h bytes, De.bind_apply, deserializeAll]
  cases hg : deGramIndex t n bytes with
  | none => rfl
  | panic w => rfl
  | ok p =>
    cases hc : deClassic t p.2.container p.1 <;> simp [hc, De.bind_apply]

/-- C99 (linear): whatever the bytes - a file of the indexer, a damaged one, one made to annoy - and whatever becomes of them, the
loader takes at most four steps for each byte of the file and one more. -/
theorem C99_linear (t : Target) (n : Nat) (bytes : Bytes) : (deserializeAllN t n bytes).2 ≤ 4 * bytes.length + 1 := by
  have := (Spend.all' (t := t) (n := n)).all bytes
  omega

/-- C99 (loaded): if the load succeeds, only the bytes that were read count, and the steps are at least a tenth of them. -/
theorem C99_loaded {t : Target} {n : Nat} {bytes rest : Bytes} {r : GramIndex Char × Classic} {steps : Nat}
    (h : deserializeAllN t n bytes = (.ok (rest, r), steps)) :
    ∃ used, bytes.length = used + rest.length ∧ used ≤ 10 * steps ∧ steps ≤ 4 * used := by
  have := (Spend.all' (t := t) (n := n)).ok _ _ _ _ h
  exact ⟨bytes.length - rest.length, by omega, by omega, by omega⟩

/-! ## Four is the best constant -/

theorem DeN.bind_ok {d : DeN α} {f : α → DeN β} {input rest : Bytes} {a : α} {k : Nat} (h : d input = (.ok (rest, a), k)) :
    (d >>= f) input = ((f a rest).1, k + (f a rest).2) := by
  show DeN.bind d f input = _
  rw [DeN.bind, h]

/-- A file with `m` vendors without a name and nothing else. -/
def vendorFile (m : Nat) : Bytes := serUsize m ++ (List.replicate m 0 ++ List.replicate 7 0)

theorem deUsize_zero (t : Target) (rest : Bytes) : deUsize t (0 :: rest) = .ok (rest, 0) := by
  have h : deU64 (0 :: rest) = .ok (rest, 0) := rfl
  rw [deUsize, De.bind_of_ok h, if_pos (show (0 : UInt64).toNat < _ from Nat.two_pow_pos _)]
  rfl

theorem deStrN_zero (t : Target) (rest : Bytes) : deStrN t (0 :: rest) = (.ok (rest, []), 1) := by
  have h : DeN.prim (deUsize t) (0 :: rest) = (.ok (rest, 0), 1) := by rw [DeN.prim, deUsize_zero]
  have h2 : deStrBody 0 rest = (.ok (rest, []), 0) := by
    have : fromUtf8 [] = some [] := by decide +kernel
    simp [deStrBody, this]
  rw [deStrN, DeN.bind_ok h, h2]
  rfl

theorem deLenN_zero {t : Target} (ht : ∀ what, t.reserves what 0 = true) (what : String) (rest : Bytes) :
    deLenN t what (0 :: rest) = (.ok (rest, 0), 1) := by
  rw [deLenN, DeN.prim, deLen, De.bind_of_ok (deUsize_zero t rest)]
  simp [De.bind_apply, De.reserve, ht]

/-- Each nameless vendor takes four steps and one byte. -/
theorem vendorLoop (t : Target) (rest : Bytes) : ∀ m i, ∃ vs, DeN.timesFrom m i (fun id => do
      let name ← deStrN t
      DeN.tick 2
      pure ({ name, id } : Vendor)) (List.replicate m 0 ++ rest) = (.ok (rest, vs), 4 * m)
  | 0, i => ⟨[], rfl⟩
  | m + 1, i => by
    obtain ⟨vs, h⟩ := vendorLoop t rest m (i + 1)
    refine ⟨{ name := [], id := i } :: vs, ?_⟩
    have h1 : (do
        let name ← deStrN t
        DeN.tick 2
        pure ({ name, id := i } : Vendor)) (List.replicate (m + 1) 0 ++ rest) =
        (.ok (List.replicate m 0 ++ rest, ({ name := [], id := i } : Vendor)), 3) := by
      rw [List.replicate_succ, List.cons_append, DeN.bind_ok (deStrN_zero t _)]
      rfl
    rw [DeN.timesFrom, DeN.bind_ok h1]
    have h2 : (DeN.tick 1 >>= fun _ => DeN.timesFrom m (i + 1) (fun id => do
          let name ← deStrN t
          DeN.tick 2
          pure ({ name, id } : Vendor)) >>= fun as => pure (({ name := [], id := i } : Vendor) :: as))
        (List.replicate m 0 ++ rest) = (.ok (rest, ({ name := [], id := i } : Vendor) :: vs), 4 * m + 1) := by
      have h3 : DeN.tick 1 (List.replicate m 0 ++ rest) = (.ok (List.replicate m 0 ++ rest, ()), 1) := rfl
      rw [DeN.bind_ok h3, DeN.bind_ok h]
      show (_, 1 + (4 * m + 0)) = _
      congr 1; omega
    rw [h2]
    show (_, 3 + (4 * m + 1)) = _
    congr 1; omega

/-- C99 (tight): no smaller constant will do. For every `m` the loader can hold there is a file of `m` bytes and a short head and
tail that loads and takes four steps for each of the `m`. -/
theorem C99_tight {t : Target} {n m : Nat} (hm : Fits t m) : (vendorFile m).length = (serUsize m).length + m + 7 ∧
    ∃ r, deserializeAllN t n (vendorFile m) = (.ok ([], r), 4 * m + 8) := by
  have hz : ∀ what, t.reserves what 0 = true := fun what => hm.2 what 0 (Nat.zero_le _)
  refine ⟨by simp [vendorFile]; omega, ?_⟩
  obtain ⟨vs, hv⟩ := vendorLoop t (List.replicate 7 0) m 0
  have h1 : deLenN t "vendors" (vendorFile m) = (.ok (List.replicate m 0 ++ List.replicate 7 0, m), 1) := by
    rw [deLenN, DeN.prim, vendorFile, deLen_rt hm]
  have h2 : deVendorsN t (vendorFile m) = (.ok (List.replicate 7 0,
      { tags := AMap.collect (vs.map fun v => (v.name, v)), byId := vs }), 4 * m + 1) := by
    rw [deVendorsN, DeN.bind_ok h1, DeN.bind_ok hv]
    show (_, 1 + (4 * m + 0)) = _
    congr 1; omega
  have hu : DeN.prim (deUsize t) (List.replicate 7 0) = (.ok (List.replicate 6 0, 0), 1) := by
    rw [DeN.prim]; exact Prod.ext (deUsize_zero t _) rfl
  have hmap : ∀ {K V : Type} [DecidableEq K] (dk : DeN K) (dv : DeN V) (k : Nat),
      deMapN t dk dv (List.replicate (k + 1) 0) = (.ok (List.replicate k 0, []), 1) := by
    intro K V _ dk dv k
    rw [deMapN, List.replicate_succ, DeN.bind_ok (deLenN_zero hz _ _)]
    rfl
  have h3 : ∃ ct, deContainerN t (vendorFile m) = (.ok (List.replicate 5 0, ct), 4 * m + 3) := by
    refine ⟨{ products := [], vendors := { tags := AMap.collect (vs.map fun v => (v.name, v)), byId := vs }, extra := [] }, ?_⟩
    rw [deContainerN, DeN.bind_ok h2, DeN.bind_ok hu]
    have h4 : DeN.timesFrom 0 0 (fun id => deProductN t id
        { tags := AMap.collect (vs.map fun v => (v.name, v)), byId := vs }) (List.replicate 6 0) =
        (.ok (List.replicate 6 0, []), 0) := rfl
    rw [DeN.bind_ok h4, DeN.bind_ok (hmap _ _ 5)]
    show (_, 4 * m + 1 + (1 + (0 + (1 + 0)))) = _
    congr 1
  obtain ⟨ct, h3⟩ := h3
  have h4 : deGramIndexN t n (vendorFile m) = (.ok (List.replicate 3 0, { container := ct, roots := [], data := [] }), 4 * m + 5) := by
    rw [deGramIndexN, DeN.bind_ok h3, DeN.bind_ok (hmap _ _ 4)]
    have h5 : deLenN t "data" (List.replicate 4 0) = (.ok (List.replicate 3 0, 0), 1) := deLenN_zero hz _ _
    rw [DeN.bind_ok h5]
    show (_, 4 * m + 3 + (1 + (1 + (0 + 0)))) = _
    congr 1
  have h6 : deClassicN t ct (List.replicate 3 0) = (.ok ([], { categories := [], tags := [], order := [] }), 3) := by
    have h7 : deCategoriesN t ct.products (List.replicate 3 0) = (.ok (List.replicate 2 0, []), 1) := by
      rw [deCategoriesN, List.replicate_succ, DeN.bind_ok (deLenN_zero hz _ _)]; rfl
    have h8 : deTagsN t ct.products (List.replicate 2 0) = (.ok (List.replicate 1 0, []), 1) := by
      rw [deTagsN, List.replicate_succ, DeN.bind_ok (deLenN_zero hz _ _)]; rfl
    rw [deClassicN, DeN.bind_ok h7, DeN.bind_ok h8, DeN.bind_ok (hmap _ _ 0)]
    rfl
  refine ⟨({ container := ct, roots := [], data := [] }, { categories := [], tags := [], order := [] }), ?_⟩
  rw [deserializeAllN, DeN.bind_ok h4, DeN.bind_ok h6]
  show (_, 4 * m + 5 + (3 + 0)) = _
  congr 1

end Idx
