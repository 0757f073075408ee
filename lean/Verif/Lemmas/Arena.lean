import Verif.Model.Arena
import Verif.Lemmas.Decode
/-! # Loading with references mirrors loading values -/
namespace Idx

/-! ## Reading lists -/

theorem mapM_some_nil {f : β → Option α} {r : List α} : ([] : List β).mapM f = some r ↔ r = [] := by
  rw [List.mapM_nil]
  show some [] = some r ↔ _
  constructor
  · intro h; exact (Option.some.inj h).symm
  · rintro rfl; rfl

theorem mapM_some_cons {f : β → Option α} {b : β} {l : List β} {r : List α} :
    (b :: l).mapM f = some r ↔ ∃ a as, f b = some a ∧ l.mapM f = some as ∧ r = a :: as := by
  rw [List.mapM_cons]
  cases h : f b with
  | none => simp
  | some a =>
    cases h2 : l.mapM f with
    | none => simp
    | some as =>
      simp only [Option.pure_def, Option.bind_eq_bind, Option.bind_some, Option.some.injEq]
      constructor
      · intro e; exact ⟨a, as, rfl, rfl, e.symm⟩
      · rintro ⟨_, _, rfl, rfl, e⟩; exact e.symm

theorem mapM_some_append {f : β → Option α} : ∀ {l l' : List β} {r : List α},
    (l ++ l').mapM f = some r ↔ ∃ as as', l.mapM f = some as ∧ l'.mapM f = some as' ∧ r = as ++ as' := by
  intro l
  induction l with
  | nil =>
    intro l' r
    constructor
    · intro h; exact ⟨[], r, mapM_some_nil.2 rfl, h, rfl⟩
    · rintro ⟨as, as', h1, h2, rfl⟩; rw [mapM_some_nil.1 h1]; exact h2
  | cons b l ih =>
    intro l' r
    rw [List.cons_append, mapM_some_cons]
    constructor
    · rintro ⟨a, s, h1, h2, rfl⟩
      obtain ⟨as, as', h3, h4, rfl⟩ := ih.1 h2
      exact ⟨a :: as, as', mapM_some_cons.2 ⟨a, as, h1, h3, rfl⟩, h4, rfl⟩
    · rintro ⟨as, as', h1, h2, rfl⟩
      obtain ⟨a, s, h3, h4, rfl⟩ := mapM_some_cons.1 h1
      exact ⟨a, s ++ as', h3, ih.2 ⟨s, as', h4, h2, rfl⟩, rfl⟩

theorem mapM_some_mono {f g : β → Option α} {l : List β} : ∀ {r : List α}, (∀ b ∈ l, ∀ a, f b = some a → g b = some a) →
    l.mapM f = some r → l.mapM g = some r := by
  induction l with
  | nil => intro r _ h; exact mapM_some_nil.2 (mapM_some_nil.1 h)
  | cons b l ih =>
    intro r hfg h
    obtain ⟨a, as, h1, h2, rfl⟩ := mapM_some_cons.1 h
    exact mapM_some_cons.2 ⟨a, as, hfg b (by simp) a h1, ih (fun b hb => hfg b (by simp [hb])) h2, rfl⟩

theorem mapM_some_length {f : β → Option α} {l : List β} : ∀ {r : List α}, l.mapM f = some r → r.length = l.length := by
  induction l with
  | nil => intro r h; rw [mapM_some_nil.1 h]; rfl
  | cons b l ih =>
    intro r h
    obtain ⟨a, as, _, h2, rfl⟩ := mapM_some_cons.1 h
    simp [ih h2]

theorem mapM_some_get {f : β → Option α} {l : List β} : ∀ {r : List α}, l.mapM f = some r → ∀ i : Nat, l[i]?.bind f = r[i]? := by
  induction l with
  | nil => intro r h i; rw [mapM_some_nil.1 h]; simp
  | cons b l ih =>
    intro r h i
    obtain ⟨a, as, h1, h2, rfl⟩ := mapM_some_cons.1 h
    cases i with
    | zero => simpa using h1
    | succ i => simpa using ih h2 i

theorem mapM_some_mem {f : β → Option α} {l : List β} : ∀ {r : List α}, l.mapM f = some r → ∀ b ∈ l, ∃ a ∈ r, f b = some a := by
  induction l with
  | nil => intro r _ b hb; simp at hb
  | cons b l ih =>
    intro r h b' hb
    obtain ⟨a, as, h1, h2, rfl⟩ := mapM_some_cons.1 h
    rcases List.mem_cons.1 hb with rfl | hb
    · exact ⟨a, by simp, h1⟩
    · obtain ⟨a', h3, h4⟩ := ih h2 b' hb
      exact ⟨a', by simp [h3], h4⟩

/-- Reading the values of a table. -/
abbrev readValues (f : β → Option α) (m : List (K × β)) : Option (List (K × α)) :=
  m.mapM fun e => (f e.2).map fun v => (e.1, v)

theorem readValues_insert [DecidableEq K] {f : β → Option α} {k : K} {b : β} {a : α} (hb : f b = some a) :
    ∀ {m : AMap K β} {r : AMap K α}, readValues f m = some r → readValues f (AMap.insert m k b) = some (AMap.insert r k a) := by
  intro m
  induction m with
  | nil =>
    intro r h
    rw [mapM_some_nil.1 h]
    exact mapM_some_cons.2 ⟨(k, a), [], by simp [hb], mapM_some_nil.2 rfl, rfl⟩
  | cons e m ih =>
    intro r h
    obtain ⟨x, xs, h1, h2, rfl⟩ := mapM_some_cons.1 h
    obtain ⟨k', b'⟩ := e
    obtain ⟨a', h3, h4⟩ := Option.map_eq_some_iff.1 h1
    subst h4
    by_cases hk : k' = k
    · have e1 : AMap.insert ((k', b') :: m) k b = (k', b) :: m := by simp [AMap.insert, AMap.upsert, hk]
      have e2 : AMap.insert ((k', a') :: xs) k a = (k', a) :: xs := by simp [AMap.insert, AMap.upsert, hk]
      rw [e1]; show _ = some (AMap.insert ((k', a') :: xs) k a); rw [e2]
      exact mapM_some_cons.2 ⟨(k', a), xs, by simp [hb], h2, rfl⟩
    · have e1 : AMap.insert ((k', b') :: m) k b = (k', b') :: AMap.insert m k b := by simp [AMap.insert, AMap.upsert, hk]
      have e2 : AMap.insert ((k', a') :: xs) k a = (k', a') :: AMap.insert xs k a := by simp [AMap.insert, AMap.upsert, hk]
      rw [e1]; show _ = some (AMap.insert ((k', a') :: xs) k a); rw [e2]
      exact mapM_some_cons.2 ⟨(k', a'), _, by simp [h3], ih h2, rfl⟩

theorem readValues_foldl [DecidableEq K] {f : β → Option α} : ∀ {l : List (K × β)} {l' : List (K × α)} {m : AMap K β} {r : AMap K α},
    readValues f l = some l' → readValues f m = some r →
    readValues f (l.foldl (fun m p => AMap.insert m p.1 p.2) m) = some (l'.foldl (fun m p => AMap.insert m p.1 p.2) r) := by
  intro l
  induction l with
  | nil => intro l' m r h1 h2; rw [mapM_some_nil.1 h1]; exact h2
  | cons e l ih =>
    intro l' m r h1 h2
    obtain ⟨x, xs, h3, h4, rfl⟩ := mapM_some_cons.1 h1
    obtain ⟨a, h5, rfl⟩ := Option.map_eq_some_iff.1 h3
    have := ih (l' := xs) h4 (readValues_insert (k := e.1) h5 h2)
    exact this

theorem readValues_collect [DecidableEq K] {f : β → Option α} {l : List (K × β)} {l' : List (K × α)}
    (h : readValues f l = some l') : readValues f (AMap.collect l) = some (AMap.collect l') :=
  readValues_foldl h (mapM_some_nil.2 rfl)

theorem readValues_get [DecidableEq K] {f : β → Option α} {k : K} : ∀ {m : AMap K β} {r : AMap K α}, readValues f m = some r →
    (AMap.get m k).bind f = AMap.get r k := by
  intro m
  induction m with
  | nil => intro r h; rw [mapM_some_nil.1 h]; rfl
  | cons e m ih =>
    intro r h
    obtain ⟨x, xs, h1, h2, rfl⟩ := mapM_some_cons.1 h
    obtain ⟨a, h3, rfl⟩ := Option.map_eq_some_iff.1 h1
    show (AMap.get (e :: m) k).bind f = AMap.get ((e.1, a) :: xs) k
    rw [AMap.get_cons, AMap.get_cons]
    by_cases hk : e.1 = k
    · simp [hk, h3]
    · simp only [hk, if_false]; exact ih h2

/-! ## Memory only grows -/

/-- A box that may have got more vendors. -/
def Boxed.Le : Boxed → Boxed → Prop
  | .vendors l, .vendors l' => l <+: l'
  | .container c, .container c' => c = c'
  | _, _ => False

theorem Boxed.Le.refl : ∀ b : Boxed, b.Le b
  | .vendors _ => List.prefix_refl _
  | .container _ => rfl

theorem Boxed.Le.trans : ∀ {a b c : Boxed}, a.Le b → b.Le c → a.Le c
  | .vendors _, .vendors _, .vendors _, h, h' => List.IsPrefix.trans h h'
  | .container _, .container _, .container _, h, h' => Eq.trans h h'
  | .vendors _, .container _, _, h, _ => h.elim
  | .container _, .vendors _, _, h, _ => h.elim
  | .vendors _, .vendors _, .container _, _, h => h.elim
  | .container _, .container _, .vendors _, _, h => h.elim

/-- Nothing is moved, changed or removed. -/
structure Memory.Le (m m' : Memory) : Prop where
  nodes : m.nodes <+: m'.nodes
  boxes : ∀ (i : Nat) (b : Boxed), m.boxes[i]? = some b → ∃ b', m'.boxes[i]? = some b' ∧ b.Le b'

theorem Memory.Le.refl (m : Memory) : m.Le m := ⟨List.prefix_refl _, fun _ b h => ⟨b, h, Boxed.Le.refl b⟩⟩

theorem Memory.Le.trans {a b c : Memory} (h : a.Le b) (h' : b.Le c) : a.Le c := by
  refine ⟨h.nodes.trans h'.nodes, fun i x hx => ?_⟩
  obtain ⟨y, hy, hxy⟩ := h.boxes i x hx
  obtain ⟨z, hz, hyz⟩ := h'.boxes i y hy
  exact ⟨z, hz, hxy.trans hyz⟩

theorem prefix_get {l l' : List α} (h : l <+: l') {i : Nat} {a : α} (hi : l[i]? = some a) : l'[i]? = some a := by
  obtain ⟨s, rfl⟩ := h
  have := (List.getElem?_eq_some_iff.1 hi).1
  rw [List.getElem?_append_left this]; exact hi

namespace Memory
variable {m m' : Memory}

theorem vendor_mono (h : m.Le m') {r : VendorRef} {v : Vendor} (hv : m.vendor r = some v) : m'.vendor r = some v := by
  unfold Memory.vendor at *
  split at hv
  · rename_i l hl
    obtain ⟨b', h1, h2⟩ := h.boxes _ _ hl
    cases b' with
    | container c => exact h2.elim
    | vendors l' => rw [h1]; exact prefix_get h2 hv
  · simp at hv

theorem cellProduct_mono (h : m.Le m') {c : ProductCell} {p : Product} (hp : m.cellProduct c = some p) :
    m'.cellProduct c = some p := by
  unfold Memory.cellProduct at *
  obtain ⟨v, h1, h2⟩ := Option.map_eq_some_iff.1 hp
  rw [vendor_mono h h1, ← h2]; rfl

theorem cellContainer_iff {c : ContainerCell} {k : Container} : m.cellContainer c = some k ↔
    c.products.mapM m.cellProduct = some k.products ∧ readValues m.vendor c.tags = some k.vendors.tags ∧
      c.byId.mapM m.vendor = some k.vendors.byId ∧ k.extra = c.extra := by
  unfold Memory.cellContainer
  constructor
  · intro h
    obtain ⟨ps, h1, h⟩ := Option.bind_eq_some_iff.1 h
    obtain ⟨ts, h2, h⟩ := Option.bind_eq_some_iff.1 h
    obtain ⟨bs, h3, h⟩ := Option.bind_eq_some_iff.1 h
    cases Option.some.inj h
    exact ⟨h1, h2, h3, rfl⟩
  · rintro ⟨h1, h2, h3, h4⟩
    obtain ⟨ps, ⟨ts, bs⟩, ex⟩ := k
    simp only at h4; subst h4
    refine Option.bind_eq_some_iff.2 ⟨ps, h1, Option.bind_eq_some_iff.2 ⟨ts, h2, Option.bind_eq_some_iff.2 ⟨bs, h3, rfl⟩⟩⟩

theorem readValues_mono {f g : β → Option α} {l : List (K × β)} {r : List (K × α)} (hfg : ∀ b a, f b = some a → g b = some a)
    (h : readValues f l = some r) : readValues g l = some r := by
  refine mapM_some_mono (fun e _ x hx => ?_) h
  obtain ⟨a, h1, h2⟩ := Option.map_eq_some_iff.1 hx
  rw [hfg _ _ h1, ← h2]; rfl

theorem cellContainer_mono (h : m.Le m') {c : ContainerCell} {k : Container} (hk : m.cellContainer c = some k) :
    m'.cellContainer c = some k := by
  rw [cellContainer_iff] at *
  exact ⟨mapM_some_mono (fun _ _ _ => cellProduct_mono h) hk.1, readValues_mono (fun _ _ => vendor_mono h) hk.2.1,
    mapM_some_mono (fun _ _ _ => vendor_mono h) hk.2.2.1, hk.2.2.2⟩

theorem container_iff {box : Nat} {k : Container} :
    m.container box = some k ↔ ∃ c, m.boxes[box]? = some (.container c) ∧ m.cellContainer c = some k := by
  unfold Memory.container
  constructor
  · intro h
    split at h
    · rename_i c hc; exact ⟨c, hc, h⟩
    · simp at h
  · rintro ⟨c, h1, h2⟩; rw [h1]; exact h2

theorem box_container_mono (h : m.Le m') {box : Nat} {c : ContainerCell} (hc : m.boxes[box]? = some (.container c)) :
    m'.boxes[box]? = some (.container c) := by
  obtain ⟨b', h1, h2⟩ := h.boxes _ _ hc
  cases b' with
  | vendors l => exact h2.elim
  | container c' => cases (h2 : c = c'); exact h1

theorem container_mono (h : m.Le m') {box : Nat} {k : Container} (hk : m.container box = some k) :
    m'.container box = some k := by
  obtain ⟨c, h1, h2⟩ := container_iff.1 hk
  exact container_iff.2 ⟨c, box_container_mono h h1, cellContainer_mono h h2⟩

theorem product_mono (h : m.Le m') {r : ProductRef} {p : Product} (hp : m.product r = some p) : m'.product r = some p := by
  unfold Memory.product at *
  split at hp
  · rename_i c hc
    rw [box_container_mono h hc]
    obtain ⟨x, h1, h2⟩ := Option.bind_eq_some_iff.1 hp
    exact Option.bind_eq_some_iff.2 ⟨x, h1, cellProduct_mono h h2⟩
  · simp at hp

theorem nodeWithin_iff {d a : Nat} {n : GramNode Char} : m.nodeWithin (d + 1) a = some n ↔
    ∃ c kids, m.nodes[a]? = some c ∧ c.byOcc.mapM (m.nodeWithin d) = some kids ∧ n = .mk c.item c.weight kids := by
  rw [Memory.nodeWithin]
  constructor
  · intro h
    split at h
    · simp at h
    · rename_i c hc
      obtain ⟨kids, h1, h2⟩ := Option.map_eq_some_iff.1 h
      exact ⟨c, kids, hc, h1, h2.symm⟩
  · rintro ⟨c, kids, h1, h2, rfl⟩
    rw [h1]; simp [h2]

theorem nodeWithin_mono (h : m.Le m') : ∀ {d d' a : Nat} {n : GramNode Char}, d ≤ d' → m.nodeWithin d a = some n →
    m'.nodeWithin d' a = some n := by
  intro d
  induction d with
  | zero => intro d' a n _ hn; simp [Memory.nodeWithin] at hn
  | succ d ih =>
    intro d' a n hd hn
    obtain ⟨d', rfl⟩ : ∃ k, d' = k + 1 := ⟨d' - 1, by omega⟩
    obtain ⟨c, kids, h1, h2, rfl⟩ := nodeWithin_iff.1 hn
    exact nodeWithin_iff.2 ⟨c, kids, prefix_get h.nodes h1, mapM_some_mono (fun _ _ _ => ih (by omega)) h2, rfl⟩

theorem node_mono (h : m.Le m') {a : Nat} {n : GramNode Char} (hn : m.node a = some n) : m'.node a = some n :=
  nodeWithin_mono h (Nat.le_refl _) hn

theorem gramIndex_iff {r : IndexRef} {ix : GramIndex Char} : m.gramIndex r = some ix ↔
    m.container r.container = some ix.container ∧ readValues m.node r.roots = some ix.roots ∧
      readValues (fun l : List ProductRef => l.mapM m.product) r.data = some ix.data := by
  unfold Memory.gramIndex
  constructor
  · intro h
    obtain ⟨c, h1, h⟩ := Option.bind_eq_some_iff.1 h
    obtain ⟨ts, h2, h⟩ := Option.bind_eq_some_iff.1 h
    obtain ⟨bs, h3, h⟩ := Option.bind_eq_some_iff.1 h
    cases Option.some.inj h
    exact ⟨h1, h2, h3⟩
  · rintro ⟨h1, h2, h3⟩
    exact Option.bind_eq_some_iff.2 ⟨_, h1, Option.bind_eq_some_iff.2 ⟨_, h2, Option.bind_eq_some_iff.2 ⟨_, h3, rfl⟩⟩⟩

theorem gramIndex_mono (h : m.Le m') {r : IndexRef} {ix : GramIndex Char} (hr : m.gramIndex r = some ix) :
    m'.gramIndex r = some ix := by
  rw [gramIndex_iff] at *
  exact ⟨container_mono h hr.1, readValues_mono (fun _ _ => node_mono h) hr.2.1,
    readValues_mono (fun _ _ => mapM_some_mono fun _ _ _ => product_mono h) hr.2.2⟩

theorem tag_mono (h : m.Le m') {r : TagRef} {x : Tag} (hr : m.tag r = some x) : m'.tag r = some x := by
  unfold Memory.tag at *
  obtain ⟨l, h1, h2⟩ := Option.map_eq_some_iff.1 hr
  rw [mapM_some_mono (fun _ _ _ => product_mono h) h1, ← h2]; rfl

theorem option_mono (h : m.Le m') {r : OptionRef} {x : CatOption} (hr : m.option r = some x) : m'.option r = some x := by
  unfold Memory.option at *
  obtain ⟨l, h1, h2⟩ := Option.map_eq_some_iff.1 hr
  rw [mapM_some_mono (fun _ _ _ => product_mono h) h1, ← h2]; rfl

theorem category_mono (h : m.Le m') {r : CategoryRef} {x : Category} (hr : m.category r = some x) : m'.category r = some x := by
  unfold Memory.category at *
  obtain ⟨l, h1, h2⟩ := Option.map_eq_some_iff.1 hr
  rw [mapM_some_mono (fun _ _ _ => option_mono h) h1, ← h2]; rfl

theorem classic_iff {r : ClassicRef} {x : Classic} : m.classic r = some x ↔
    r.categories.mapM m.category = some x.categories ∧ r.tags.mapM m.tag = some x.tags ∧ x.order = r.order := by
  unfold Memory.classic
  constructor
  · intro h
    obtain ⟨c, h1, h⟩ := Option.bind_eq_some_iff.1 h
    obtain ⟨ts, h2, h⟩ := Option.bind_eq_some_iff.1 h
    cases Option.some.inj h
    exact ⟨h1, h2, rfl⟩
  · rintro ⟨h1, h2, h3⟩
    obtain ⟨c, ts, od⟩ := x
    simp only at h3; subst h3
    exact Option.bind_eq_some_iff.2 ⟨_, h1, Option.bind_eq_some_iff.2 ⟨_, h2, rfl⟩⟩

theorem classic_mono (h : m.Le m') {r : ClassicRef} {x : Classic} (hr : m.classic r = some x) : m'.classic r = some x := by
  rw [classic_iff] at *
  exact ⟨mapM_some_mono (fun _ _ _ => category_mono h) hr.1, mapM_some_mono (fun _ _ _ => tag_mono h) hr.2.1, hr.2.2⟩

end Memory

/-! ## Well-formed memory -/

/-- The items of nodes at given places. -/
def Memory.itemAt (m : Memory) (a : Nat) : Char := ((m.nodes[a]?).map (·.item)).getD default

/-- Every node refers to nodes allocated before it, and its table of items is the one of its children. -/
def Memory.Wf (m : Memory) : Prop := ∀ (a : Nat) (c : NodeCell), m.nodes[a]? = some c →
  (∀ k ∈ c.byOcc, k < a) ∧ c.items = AMap.collect (c.byOcc.map fun k => (m.itemAt k, k))

theorem Memory.itemAt_mono {m m' : Memory} (h : m.Le m') {a : Nat} (ha : a < m.nodes.length) : m'.itemAt a = m.itemAt a := by
  unfold Memory.itemAt
  have h1 : m.nodes[a]? = some m.nodes[a] := List.getElem?_eq_getElem ha
  rw [h1, prefix_get h.nodes h1]

/-- Every node of a well-formed memory is a tree. -/
theorem Memory.Wf.node {m : Memory} (h : m.Wf) : ∀ (d a : Nat), a < d → a < m.nodes.length → ∃ n, m.nodeWithin d a = some n := by
  intro d
  induction d with
  | zero => intro a h1; omega
  | succ d ih =>
    intro a h1 h2
    have hc : m.nodes[a]? = some m.nodes[a] := List.getElem?_eq_getElem h2
    have hk : ∀ l : List Nat, (∀ k ∈ l, k < a) → ∃ kids, l.mapM (m.nodeWithin d) = some kids := by
      intro l
      induction l with
      | nil => intro _; exact ⟨[], mapM_some_nil.2 rfl⟩
      | cons k l ihl =>
        intro hl
        obtain ⟨kids, hkids⟩ := ihl fun k hk => hl k (by simp [hk])
        have := hl k (by simp)
        obtain ⟨n, hn⟩ := ih k (by omega) (by omega)
        exact ⟨n :: kids, mapM_some_cons.2 ⟨n, kids, hn, hkids, rfl⟩⟩
    obtain ⟨kids, hkids⟩ := hk _ (h a _ hc).1
    exact ⟨_, Memory.nodeWithin_iff.2 ⟨_, kids, hc, hkids, rfl⟩⟩

/-! ## Decoders that do the same -/

/-- Both succeed with related values and the same rest, or both fail in the same way. -/
def DSim (d : De β) (d' : De α) (R : β → α → Prop) : Prop := ∀ input : Bytes,
  match d input, d' input with
  | .ok (r, b), .ok (r', a) => r = r' ∧ R b a
  | .none, .none => True
  | .panic w, .panic w' => w = w'
  | _, _ => False

/-- The same with memory, which may only grow and stays well-formed. -/
def Sim (m : Memory) (l : Ld β) (d : De α) (R : Memory → β → α → Prop) : Prop := m.Wf → ∀ input : Bytes,
  m.Le (l m input).1 ∧ (l m input).1.Wf ∧
  match (l m input).2, d input with
  | .ok (r, b), .ok (r', a) => r = r' ∧ R (l m input).1 b a
  | .none, .none => True
  | .panic w, .panic w' => w = w'
  | _, _ => False

theorem DSim.refl (d : De α) : DSim d d (fun b a => b = a) := by
  intro input
  cases h : d input with
  | ok r => exact ⟨rfl, rfl⟩
  | none => trivial
  | panic w => rfl

theorem DSim.mono {d : De β} {d' : De α} {R S : β → α → Prop} (h : DSim d d' R) (hRS : ∀ b a, R b a → S b a) : DSim d d' S := by
  intro input
  have h1 := h input
  revert h1
  cases d input <;> cases d' input <;> simp
  exact fun e h => ⟨e, hRS _ _ h⟩

theorem DSim.pure {b : β} {a : α} {R : β → α → Prop} (h : R b a) : DSim (Pure.pure b) (Pure.pure a) R :=
  fun _ => ⟨rfl, h⟩

theorem DSim.bind {d : De β} {d' : De α} {f : β → De δ} {f' : α → De γ} {R : β → α → Prop} {S : δ → γ → Prop}
    (h : DSim d d' R) (hf : ∀ b a, R b a → DSim (f b) (f' a) S) : DSim (d >>= f) (d' >>= f') S := by
  intro input
  have h1 := h input
  rw [De.bind_apply, De.bind_apply]
  revert h1
  cases d input with
  | none => cases d' input <;> simp
  | panic w => cases d' input <;> simp
  | ok x =>
    cases d' input with
    | none => simp
    | panic w => simp
    | ok y =>
      obtain ⟨r, b⟩ := x
      obtain ⟨r', a⟩ := y
      rintro ⟨rfl, h2⟩
      exact hf b a h2 r

theorem DSim.lift {x : Res β} {y : Res α} {R : β → α → Prop}
    (h : match x, y with
      | .ok b, .ok a => R b a
      | .none, .none => True
      | .panic w, .panic w' => w = w'
      | _, _ => False) : DSim (De.lift x) (De.lift y) R := by
  intro input
  rw [De.lift_apply, De.lift_apply]
  revert h
  cases x <;> cases y <;> simp

theorem DSim.ofOption {x : Option β} {y : Option α} {R : β → α → Prop}
    (h : match x, y with
      | some b, some a => R b a
      | none, none => True
      | _, _ => False) : DSim (De.lift (Res.ofOption x)) (De.lift (Res.ofOption y)) R := by
  refine DSim.lift ?_
  revert h
  cases x <;> cases y <;> simp

theorem DSim.times {d : De β} {d' : De α} {f : β → Option α} (h : DSim d d' fun b a => f b = some a) :
    ∀ n, DSim (De.times n d) (De.times n d') fun bs as => bs.mapM f = some as
  | 0 => DSim.pure (mapM_some_nil.2 rfl)
  | n + 1 => h.bind fun _ a h1 => (DSim.times h n).bind fun _ as h2 =>
      DSim.pure (mapM_some_cons.2 ⟨a, as, h1, h2, rfl⟩)

theorem DSim.timesFrom {d : Nat → De β} {d' : Nat → De α} {f : β → Option α} (h : ∀ i, DSim (d i) (d' i) fun b a => f b = some a) :
    ∀ n i, DSim (De.timesFrom n i d) (De.timesFrom n i d') fun bs as => bs.mapM f = some as
  | 0, _ => DSim.pure (mapM_some_nil.2 rfl)
  | n + 1, i => (h i).bind fun _ a h1 => (DSim.timesFrom h n (i + 1)).bind fun _ as h2 =>
      DSim.pure (mapM_some_cons.2 ⟨a, as, h1, h2, rfl⟩)

theorem Sim.of {m : Memory} {d : De β} {d' : De α} {R : Memory → β → α → Prop} (h : DSim d d' (R m)) : Sim m (Ld.of d) d' R := by
  intro hwf input
  exact ⟨Memory.Le.refl m, hwf, h input⟩

theorem Sim.pure {m : Memory} {b : β} {a : α} {R : Memory → β → α → Prop} (h : R m b a) : Sim m (Pure.pure b : Ld β) (Pure.pure a) R :=
  fun hwf _ => ⟨Memory.Le.refl m, hwf, rfl, h⟩

theorem Ld.bind_apply (l : Ld α) (f : α → Ld β) (m : Memory) (input : Bytes) : (l >>= f) m input =
    match l m input with
    | (m, .ok (rest, a)) => f a m rest
    | (m, .none) => (m, .none)
    | (m, .panic w) => (m, .panic w) := rfl

theorem Sim.bind {m : Memory} {l : Ld β} {d : De α} {f : β → Ld δ} {g : α → De γ} {R : Memory → β → α → Prop}
    {S : Memory → δ → γ → Prop} (h : Sim m l d R) (hf : ∀ m' b a, m.Le m' → m'.Wf → R m' b a → Sim m' (f b) (g a) S) :
    Sim m (l >>= f) (d >>= g) S := by
  intro hwf input
  have h1 := h hwf input
  rw [De.bind_apply, Ld.bind_apply]
  revert h1
  generalize l m input = x
  obtain ⟨m', x⟩ := x
  rintro ⟨hle, hwf', h1⟩
  revert h1
  cases x with
  | none => cases d input <;> simp [hle, hwf']
  | panic w => cases d input <;> simp [hle, hwf']
  | ok x =>
    cases d input with
    | none => simp
    | panic w => simp
    | ok y =>
      obtain ⟨r, b⟩ := x
      obtain ⟨r', a⟩ := y
      rintro ⟨rfl, h2⟩
      have h3 := hf m' b a hle hwf' h2 hwf' r
      exact ⟨hle.trans h3.1, h3.2⟩

/-- A decoder that uses the memory on one side only. -/
theorem Sim.step {m : Memory} {l : Ld β} {f : β → Ld δ} {d : De γ} {S : Memory → δ → γ → Prop} (P : Memory → β → Prop)
    (h : m.Wf → ∀ input, ∃ m' b, l m input = (m', .ok (input, b)) ∧ m.Le m' ∧ m'.Wf ∧ P m' b)
    (hf : ∀ m' b, m.Le m' → m'.Wf → P m' b → Sim m' (f b) d S) : Sim m (l >>= f) d S := by
  intro hwf input
  obtain ⟨m', b, h1, h2, h3, h4⟩ := h hwf input
  rw [Ld.bind_apply, h1]
  have := hf m' b h2 h3 h4 h3 input
  exact ⟨h2.trans this.1, this.2⟩

theorem Sim.mono {m : Memory} {l : Ld β} {d : De α} {R S : Memory → β → α → Prop} (h : Sim m l d R)
    (hRS : ∀ m' b a, m.Le m' → R m' b a → S m' b a) : Sim m l d S := by
  intro hwf input
  have h1 := h hwf input
  refine ⟨h1.1, h1.2.1, ?_⟩
  have hle := h1.1
  have h2 := h1.2.2
  revert h2
  cases (l m input).2 <;> cases d input <;> simp
  exact fun e h => ⟨e, hRS _ _ _ hle h⟩

/-- Loops: `read` says what a result means, `size` how many nodes it takes. -/
theorem Sim.times {l : Ld β} {d : De α} {read : Memory → β → Option α} {size : α → Nat}
    (hmono : ∀ m m' b a, Memory.Le m m' → read m b = some a → read m' b = some a)
    (h : ∀ m, Sim m l d fun m' b a => read m' b = some a ∧ m'.nodes.length = m.nodes.length + size a) :
    ∀ n m, Sim m (Ld.times n l) (De.times n d) fun m' bs as => bs.mapM (read m') = some as ∧
      m'.nodes.length = m.nodes.length + (as.map size).sum
  | 0, _ => Sim.pure ⟨mapM_some_nil.2 rfl, by simp⟩
  | n + 1, m => (h m).bind fun m1 b a h1 _ h2 => (Sim.times hmono h n m1).bind fun m2 bs as h3 _ h4 =>
      Sim.pure ⟨mapM_some_cons.2 ⟨a, as, hmono _ _ _ _ h3 h2.1, h4.1, rfl⟩, by
        rw [h4.2, h2.2, List.map_cons, List.sum_cons]; omega⟩

end Idx
