import Verif.Lemmas.AMap
import Verif.Model.Js
/-! # C37, C38, C39, C44: handlers and iterators -/
namespace Idx

/-! ## C37, C38 — category handler

A history is any sequence of the mutating calls of the handler. -/

/-- The mutating calls of `CategoryHandler`. -/
inductive CatOp where
  | toggle (item : ExportOption)
  | addGeneral (f : JsFn)
  | addListener (item : ExportOption) (f : JsFn)
  | removeListener (item : ExportOption) (f : JsFn)

def CatOp.run (h : CategoryHandler) : CatOp → CategoryHandler
  | toggle item => (h.toggle item).1
  | addGeneral f => h.addGeneral f
  | addListener item f => h.addOptionListener item f
  | removeListener item f => h.removeOptionListener item f

/-- Spec: how often the option with these keys (category, option) was toggled. -/
def togglesOf (k : Nat × Nat) (ops : List CatOp) : Nat :=
  ops.countP fun | .toggle item => (item.catId, item.optionId) == k | _ => false

theorem keys_eq (item : ExportOption) : (item.catId, item.optionId) = item.keys := rfl

theorem togglesOf_append (k : Nat × Nat) (a b : List CatOp) :
    togglesOf k (a ++ b) = togglesOf k a + togglesOf k b := List.countP_append

/-- Spec: number of live registrations of `f` for an option: +1 per registration, -1 per removal
(a removal with none registered does nothing). -/
def registrations (k : Nat × Nat) (f : JsFn) : List CatOp → Nat → Nat
  | [], n => n
  | .addListener item g :: ops, n => registrations k f ops (if (item.catId, item.optionId) = k ∧ g = f then n + 1 else n)
  | .removeListener item g :: ops, n =>
    registrations k f ops (if (item.catId, item.optionId) = k ∧ g = f then n - 1 else n)
  | _ :: ops, n => registrations k f ops n

/-- Spec: the general observers, in registration order. -/
def generalOf (ops : List CatOp) : List JsFn :=
  ops.filterMap fun | .addGeneral f => some f | _ => none

theorem toggleEntry_spec {K : Type} [DecidableEq K] {m : AMap K Unit} (hm : AMap.Wf m) (k : K) :
    AMap.Wf (toggleEntry m k).1 ∧
    (∀ k', (AMap.get (toggleEntry m k).1 k').isSome =
      (if k = k' then !(AMap.get m k').isSome else (AMap.get m k').isSome)) ∧
    (toggleEntry m k).2 = !(AMap.get m k).isSome := by
  unfold toggleEntry
  cases hg : AMap.get m k with
  | some u =>
    refine ⟨hm.remove k, fun k' => ?_, rfl⟩
    simp only [AMap.get_remove hm]
    by_cases h : k = k'
    · subst h; simp [hg]
    · simp [h]
  | none =>
    refine ⟨hm.insert k (), fun k' => ?_, rfl⟩
    simp only [AMap.get_insert]
    by_cases h : k = k'
    · subst h; simp [hg]
    · simp [h]

theorem swapRemove_perm {l : List α} {i : Nat} (hi : i < l.length) :
    (swapRemove l i).Perm (l.eraseIdx i) := by
  unfold swapRemove
  rcases List.eq_nil_or_concat l with rfl | ⟨init, x, rfl⟩
  · simp at hi
  · simp only [List.concat_eq_append, List.length_append, List.length_cons, List.length_nil] at *
    simp only [List.getLast?_append, List.getLast?_singleton, Option.some_or]
    by_cases h : i < init.length
    · rw [List.set_append_left _ _ h, List.dropLast_concat, List.eraseIdx_append_of_lt_length h]
      rw [List.eraseIdx_eq_take_drop_succ, List.set_eq_take_append_cons_drop, if_pos h]
      simp only [List.append_assoc]
      refine List.Perm.append_left _ ?_
      exact (List.perm_append_singleton x _).symm
    · have : i = init.length := by omega
      subst this
      rw [List.set_append_right _ _ (by omega), List.eraseIdx_append_of_length_le (Nat.le_refl _)]
      simp

theorem count_removeFirst {l : List JsFn} {f : JsFn} {i : Nat} (h : l.findIdx? (fun g => g == f) = some i)
    (g : JsFn) : (swapRemove l i).count g = if f = g then l.count g - 1 else l.count g := by
  rw [List.findIdx?_eq_some_iff_getElem] at h
  obtain ⟨hi, he, _⟩ := h
  have he : l[i] = f := by simpa using he
  rw [(swapRemove_perm hi).count_eq]
  have hp : (l[i] :: l.eraseIdx i).Perm l := by
    rw [List.eraseIdx_eq_take_drop_succ]
    refine List.perm_middle.symm.trans ?_
    rw [List.getElem_cons_drop, List.take_append_drop]
  have := hp.count_eq g
  rw [he, List.count_cons] at this
  by_cases hfg : f = g
  · simp [hfg] at this ⊢; omega
  · simp [hfg] at this ⊢; omega

/-- What is tracked along a history. -/
structure CatInv (h0 h : CategoryHandler) (ops : List CatOp) : Prop where
  wf : AMap.Wf h.active
  handle : h.handle = h0.handle
  status : ∀ k, (AMap.get h.active k).isSome =
    ((AMap.get h0.active k).isSome ^^ decide (togglesOf k ops % 2 = 1))
  general : h.general = h0.general ++ generalOf ops
  regs : ∀ k f, ((AMap.get h.observers k).getD []).count f =
    registrations k f ops (((AMap.get h0.observers k).getD []).count f)

theorem registrations_append (k : Nat × Nat) (f : JsFn) (a b : List CatOp) : ∀ n,
    registrations k f (a ++ b) n = registrations k f b (registrations k f a n) := by
  induction a with
  | nil => intro n; rfl
  | cons op a ih => intro n; cases op <;> simp [registrations, ih]

theorem catInv_step {h0 h : CategoryHandler} {ops : List CatOp} (inv : CatInv h0 h ops) (op : CatOp) :
    CatInv h0 (op.run h) (ops ++ [op]) := by
  cases op with
  | toggle item =>
    obtain ⟨h1, h2, h3⟩ := toggleEntry_spec inv.wf item.keys
    refine ⟨h1, inv.handle, ?_, by simpa [CatOp.run, generalOf, CategoryHandler.toggle] using inv.general, ?_⟩
    · intro k
      simp only [CatOp.run, CategoryHandler.toggle, h2, inv.status]
      have hc : togglesOf k (ops ++ [.toggle item]) =
          togglesOf k ops + if item.keys == k then 1 else 0 := by
        simp [togglesOf, keys_eq, List.countP_append, List.countP_cons]
      rw [hc]
      by_cases hk : item.keys = k
      · simp only [hk, if_true, BEq.rfl]
        rcases Nat.mod_two_eq_zero_or_one (togglesOf k ops) with hm | hm
        · have : (togglesOf k ops + 1) % 2 = 1 := by omega
          simp [hm, this]
        · have : (togglesOf k ops + 1) % 2 = 0 := by omega
          simp [hm, this]
      · simp [hk]
    · intro k f
      rw [registrations_append]
      simpa [CatOp.run, CategoryHandler.toggle, registrations, keys_eq] using inv.regs k f
  | addGeneral g =>
    refine ⟨inv.wf, inv.handle, ?_, ?_, ?_⟩
    · intro k; rw [togglesOf_append]; exact inv.status k
    · simp [CatOp.run, CategoryHandler.addGeneral, generalOf, inv.general]
    · intro k f
      rw [registrations_append]
      simpa [CatOp.run, CategoryHandler.addGeneral, registrations, keys_eq] using inv.regs k f
  | addListener item g =>
    refine ⟨inv.wf, inv.handle, ?_, ?_, ?_⟩
    · intro k; rw [togglesOf_append]; exact inv.status k
    · simpa [CatOp.run, CategoryHandler.addOptionListener, generalOf] using inv.general
    · intro k f
      rw [registrations_append, ← inv.regs]
      simp only [CatOp.run, CategoryHandler.addOptionListener, addObserver, registrations, keys_eq, AMap.get_upsert]
      by_cases hk : item.keys = k
      · subst hk
        cases hg : AMap.get h.observers item.keys with
        | none => by_cases hf : g = f <;> simp [hf]
        | some l =>
          by_cases hf : g = f <;> simp [hf, List.count_append]
      · simp [hk]
  | removeListener item g =>
    refine ⟨inv.wf, inv.handle, ?_, ?_, ?_⟩
    · intro k; rw [togglesOf_append]; exact inv.status k
    · simpa [CatOp.run, CategoryHandler.removeOptionListener, generalOf] using inv.general
    · intro k f
      rw [registrations_append, ← inv.regs]
      simp only [CatOp.run, CategoryHandler.removeOptionListener, removeObserver, registrations, keys_eq]
      cases hg : AMap.get h.observers item.keys with
      | none =>
        by_cases hk : item.keys = k
        · subst hk; simp [hg]
        · simp [hk]
      | some l =>
        simp only
        cases hi : l.findIdx? (fun x => x == g) with
        | none =>
          simp only
          by_cases hk : item.keys = k ∧ g = f
          · obtain ⟨rfl, rfl⟩ := hk
            have : l.count g = 0 := by
              rw [List.count_eq_zero]
              intro hm
              rw [List.findIdx?_eq_none_iff] at hi
              simpa using hi g hm
            simp [hg, this]
          · simp [hk]
        | some i =>
          simp only [AMap.get_insert]
          by_cases hk : item.keys = k
          · subst hk
            simp only [if_true, Option.getD_some, true_and, count_removeFirst hi, hg]
          · simp [hk]

theorem catInv_run (h0 : CategoryHandler) (hwf : AMap.Wf h0.active) (ops : List CatOp) :
    CatInv h0 (ops.foldl CatOp.run h0) ops := by
  have : ∀ (todo done : List CatOp) (h : CategoryHandler), CatInv h0 h done →
      CatInv h0 (todo.foldl CatOp.run h) (done ++ todo) := by
    intro todo
    induction todo with
    | nil => intro done h inv; simpa using inv
    | cons op todo ih =>
      intro done h inv
      have := ih (done ++ [op]) (op.run h) (catInv_step inv op)
      simpa using this
  refine this ops [] h0 ⟨hwf, rfl, ?_, ?_, ?_⟩
  · intro k; simp [togglesOf]
  · simp [generalOf]
  · intro k f; rfl

/-- After any history of a fresh handler an option is active iff it was toggled an odd number of times. -/
theorem C37_categories (c : Classic) (ops : List CatOp) (item : ExportOption) :
    (ops.foldl CatOp.run (.new c)).getStatus item = decide (togglesOf (item.catId, item.optionId) ops % 2 = 1) := by
  have := (catInv_run (.new c) AMap.Wf.nil ops).status item.keys
  simp only [CategoryHandler.new, AMap.get, Option.isSome_none, Bool.false_xor] at this
  exact this

/-- Each toggle calls the observers of that option (one call per live registration of each), then
the general observers in registration order, once per registration, all with the new state. -/
theorem C38_categories (c : Classic) (ops : List CatOp) (item : ExportOption) :
    let h := ops.foldl CatOp.run (.new c)
    ∃ own, (h.toggle item).2 = (own ++ generalOf ops).map (fun f => (f, (h.toggle item).1.getStatus item)) ∧
      (∀ f, own.count f = registrations (item.catId, item.optionId) f ops 0) ∧
      (h.toggle item).1.getStatus item = decide ((togglesOf (item.catId, item.optionId) ops + 1) % 2 = 1) := by
  intro h
  have inv := catInv_run (.new c) AMap.Wf.nil ops
  obtain ⟨h1, h2, h3⟩ := toggleEntry_spec inv.wf item.keys
  have hst : (h.toggle item).1.getStatus item = (toggleEntry h.active item.keys).2 := by
    simp only [CategoryHandler.toggle, CategoryHandler.getStatus]
    rw [h2, h3]; simp
  refine ⟨(AMap.get h.observers item.keys).getD [], ?_, ?_, ?_⟩
  · rw [hst]
    have hg := inv.general
    simp only [CategoryHandler.new, List.nil_append] at hg
    simp only [CategoryHandler.toggle, notify]
    rw [show h.general = generalOf ops from hg]
  · intro f
    have := inv.regs item.keys f
    exact this
  · have := C37_categories c (ops ++ [.toggle item]) item
    rw [List.foldl_append] at this
    simp only [List.foldl_cons, List.foldl_nil, CatOp.run] at this
    rw [this, togglesOf_append]
    have : togglesOf (item.catId, item.optionId) [.toggle item] = 1 := by simp [togglesOf]
    rw [this]

/-- A history with repeated registrations and a removal. -/
example :
    let item : ExportOption := ⟨[], 1, 2⟩
    let ops : List CatOp := [.addListener item 7, .addListener item 7, .addGeneral 9, .toggle item,
      .removeListener item 7]
    registrations item.keys 7 ops 0 = 1 ∧ togglesOf item.keys ops = 1 ∧
      ((ops.foldl CatOp.run (.new ⟨[], [], []⟩)).toggle item).2 = [(7, false), (9, false)] := by
  decide +kernel

/-! ## C37, C38 — tag handler

Tags are identified by id when toggled and by position when queried; for any index that was built
or loaded these coincide (`C12`, `C18`). -/

/-- Tag ids are positions. -/
def TagsNumbered (c : Classic) : Prop := ∀ (i : Nat) (t : Tag), c.tags[i]? = some t → t.id = i

/-- A tag object handed out by the crate: in range, from an index with numbered tags. -/
def JsTag.Ok (t : JsTag) : Prop := TagsNumbered t.handle ∧ t.index < t.handle.tags.length

theorem JsTag.Ok.getId {t : JsTag} (h : t.Ok) : t.getId = .ok t.index := by
  have : t.handle.tags[t.index]? = some (t.handle.tags[t.index]'h.2) := List.getElem?_eq_getElem h.2
  simp only [JsTag.getId, JsTag.tag, this]
  have := h.1 _ _ this
  simp only [bind, Except.bind, this]

/-- The mutating calls of `TagHandler`. -/
inductive TagOp where
  | toggle (tag : JsTag)
  | addGeneral (f : JsFn)
  | addListener (tag : JsTag) (f : JsFn)
  | removeListener (tag : JsTag) (f : JsFn)

def TagOp.run (h : TagHandler) : TagOp → Except Panic TagHandler
  | toggle tag => (h.toggle tag).map (·.1)
  | addGeneral f => .ok (h.addGeneral f)
  | addListener tag f => h.addTagListener tag f
  | removeListener tag f => h.removeTagListener tag f

def TagOp.Ok : TagOp → Prop
  | toggle tag => tag.Ok
  | addGeneral _ => True
  | addListener tag _ => tag.Ok
  | removeListener tag _ => tag.Ok

/-- Spec: how often the tag at this position was toggled. -/
def tagTogglesOf (i : Nat) (ops : List TagOp) : Nat :=
  ops.countP fun | .toggle tag => tag.index == i | _ => false

theorem tagTogglesOf_append (k : Nat) (a b : List TagOp) :
    tagTogglesOf k (a ++ b) = tagTogglesOf k a + tagTogglesOf k b := List.countP_append

/-- Spec: number of live registrations of `f` for a tag. -/
def tagRegistrations (i : Nat) (f : JsFn) : List TagOp → Nat → Nat
  | [], n => n
  | .addListener tag g :: ops, n => tagRegistrations i f ops (if tag.index = i ∧ g = f then n + 1 else n)
  | .removeListener tag g :: ops, n =>
    tagRegistrations i f ops (if tag.index = i ∧ g = f then n - 1 else n)
  | _ :: ops, n => tagRegistrations i f ops n

/-- Spec: the general observers, in registration order. -/
def tagGeneralOf (ops : List TagOp) : List JsFn :=
  ops.filterMap fun | .addGeneral f => some f | _ => none

/-- What is tracked along a history. -/
structure TagInv (h0 h : TagHandler) (ops : List TagOp) : Prop where
  wf : AMap.Wf h.active
  handle : h.handle = h0.handle
  status : ∀ k, (AMap.get h.active k).isSome =
    ((AMap.get h0.active k).isSome ^^ decide (tagTogglesOf k ops % 2 = 1))
  general : h.general = h0.general ++ tagGeneralOf ops
  regs : ∀ k f, ((AMap.get h.observers k).getD []).count f =
    tagRegistrations k f ops (((AMap.get h0.observers k).getD []).count f)

theorem tagRegistrations_append (k : Nat) (f : JsFn) (a b : List TagOp) : ∀ n,
    tagRegistrations k f (a ++ b) n = tagRegistrations k f b (tagRegistrations k f a n) := by
  induction a with
  | nil => intro n; rfl
  | cons op a ih => intro n; cases op <;> simp [tagRegistrations, ih]

theorem tagInv_step {h0 h : TagHandler} {ops : List TagOp} (inv : TagInv h0 h ops) (op : TagOp)
    (hop : op.Ok) : ∃ h', op.run h = .ok h' ∧ TagInv h0 h' (ops ++ [op]) := by
  cases op with
  | toggle tag =>
    have hid := JsTag.Ok.getId hop
    obtain ⟨h1, h2, h3⟩ := toggleEntry_spec inv.wf tag.index
    refine ⟨{ h with active := (toggleEntry h.active tag.index).1 }, ?_, h1, inv.handle, ?_, ?_, ?_⟩
    · simp [TagOp.run, TagHandler.toggle, hid, bind, Except.bind, Except.map]
    · intro k
      simp only [h2, inv.status]
      have hc : tagTogglesOf k (ops ++ [.toggle tag]) =
          tagTogglesOf k ops + if tag.index == k then 1 else 0 := by
        simp [tagTogglesOf, List.countP_append, List.countP_cons]
      rw [hc]
      by_cases hk : tag.index = k
      · simp only [hk, if_true, BEq.rfl]
        rcases Nat.mod_two_eq_zero_or_one (tagTogglesOf k ops) with hm | hm
        · have : (tagTogglesOf k ops + 1) % 2 = 1 := by omega
          simp [hm, this]
        · have : (tagTogglesOf k ops + 1) % 2 = 0 := by omega
          simp [hm, this]
      · simp [hk]
    · simpa [tagGeneralOf] using inv.general
    · intro k f
      rw [tagRegistrations_append]
      simpa [tagRegistrations] using inv.regs k f
  | addGeneral g =>
    refine ⟨h.addGeneral g, rfl, inv.wf, inv.handle, ?_, ?_, ?_⟩
    · intro k; rw [tagTogglesOf_append]; exact inv.status k
    · simp [TagHandler.addGeneral, tagGeneralOf, inv.general]
    · intro k f
      rw [tagRegistrations_append]
      simpa [TagHandler.addGeneral, tagRegistrations] using inv.regs k f
  | addListener tag g =>
    have hid := JsTag.Ok.getId hop
    refine ⟨{ h with observers := addObserver h.observers tag.index g }, ?_, inv.wf, inv.handle, ?_, ?_, ?_⟩
    · simp [TagOp.run, TagHandler.addTagListener, hid, bind, Except.bind]
    · intro k; rw [tagTogglesOf_append]; exact inv.status k
    · simpa [tagGeneralOf] using inv.general
    · intro k f
      rw [tagRegistrations_append, ← inv.regs]
      simp only [addObserver, tagRegistrations, AMap.get_upsert]
      by_cases hk : tag.index = k
      · subst hk
        cases hg : AMap.get h.observers tag.index with
        | none => by_cases hf : g = f <;> simp [hf]
        | some l =>
          by_cases hf : g = f <;> simp [hf, List.count_append]
      · simp [hk]
  | removeListener tag g =>
    have hid := JsTag.Ok.getId hop
    refine ⟨{ h with observers := removeObserver h.observers tag.index g }, ?_, inv.wf, inv.handle,
      ?_, ?_, ?_⟩
    · simp [TagOp.run, TagHandler.removeTagListener, hid, bind, Except.bind]
    · intro k; rw [tagTogglesOf_append]; exact inv.status k
    · simpa [tagGeneralOf] using inv.general
    · intro k f
      rw [tagRegistrations_append, ← inv.regs]
      simp only [removeObserver, tagRegistrations]
      cases hg : AMap.get h.observers tag.index with
      | none =>
        by_cases hk : tag.index = k
        · subst hk; simp [hg]
        · simp [hk]
      | some l =>
        simp only
        cases hi : l.findIdx? (fun x => x == g) with
        | none =>
          simp only
          by_cases hk : tag.index = k ∧ g = f
          · obtain ⟨rfl, rfl⟩ := hk
            have : l.count g = 0 := by
              rw [List.count_eq_zero]
              intro hm
              rw [List.findIdx?_eq_none_iff] at hi
              simpa using hi g hm
            simp [hg, this]
          · simp [hk]
        | some i =>
          simp only [AMap.get_insert]
          by_cases hk : tag.index = k
          · subst hk
            simp only [if_true, Option.getD_some, true_and, count_removeFirst hi, hg]
          · simp [hk]

theorem tagInv_run (h0 : TagHandler) (hwf : AMap.Wf h0.active) (ops : List TagOp)
    (hops : ∀ op ∈ ops, op.Ok) : ∃ h, ops.foldlM TagOp.run h0 = .ok h ∧ TagInv h0 h ops := by
  have : ∀ (todo done : List TagOp) (h : TagHandler), (∀ op ∈ todo, op.Ok) → TagInv h0 h done →
      ∃ h', todo.foldlM TagOp.run h = .ok h' ∧ TagInv h0 h' (done ++ todo) := by
    intro todo
    induction todo with
    | nil => intro done h _ inv; exact ⟨h, rfl, by simpa using inv⟩
    | cons op todo ih =>
      intro done h hok inv
      obtain ⟨h1, e1, inv1⟩ := tagInv_step inv op (hok op (by simp))
      obtain ⟨h', e', inv'⟩ := ih (done ++ [op]) h1 (fun o ho => hok o (by simp [ho])) inv1
      refine ⟨h', ?_, by simpa using inv'⟩
      rw [List.foldlM_cons, e1]; exact e'
  refine this ops [] h0 hops ⟨hwf, rfl, ?_, ?_, ?_⟩
  · intro k; simp [tagTogglesOf]
  · simp [tagGeneralOf]
  · intro k f; rfl

/-- No call panics, and a tag is active iff it was toggled an odd number of times. -/
theorem C37_tags (c : Classic) (ops : List TagOp) (hops : ∀ op ∈ ops, op.Ok) :
    ∃ h, ops.foldlM TagOp.run (TagHandler.new c) = .ok h ∧
      ∀ tag, h.getStatus tag = decide (tagTogglesOf tag.index ops % 2 = 1) := by
  obtain ⟨h, e, inv⟩ := tagInv_run (.new c) AMap.Wf.nil ops hops
  refine ⟨h, e, fun tag => ?_⟩
  have := inv.status tag.index
  simpa [TagHandler.getStatus, TagHandler.new] using this

/-- Each toggle of a tag calls its observers once per live registration, then the general ones. -/
theorem C38_tags (c : Classic) (ops : List TagOp) (hops : ∀ op ∈ ops, op.Ok) (h : TagHandler)
    (e : ops.foldlM TagOp.run (TagHandler.new c) = .ok h) (tag : JsTag) (htag : tag.Ok) :
    ∃ h' calls own, h.toggle tag = .ok (h', calls) ∧
      calls = (own ++ tagGeneralOf ops).map (fun f => (f, h'.getStatus tag)) ∧
      (∀ f, own.count f = tagRegistrations tag.index f ops 0) ∧
      h'.getStatus tag = decide ((tagTogglesOf tag.index ops + 1) % 2 = 1) := by
  obtain ⟨h1, e1, inv⟩ := tagInv_run (.new c) AMap.Wf.nil ops hops
  rw [e] at e1
  cases e1
  obtain ⟨t1, t2, t3⟩ := toggleEntry_spec inv.wf tag.index
  refine ⟨{ h with active := (toggleEntry h.active tag.index).1 },
    notify h.observers h.general tag.index (toggleEntry h.active tag.index).2,
    (AMap.get h.observers tag.index).getD [], ?_, ?_, ?_, ?_⟩
  · simp [TagHandler.toggle, htag.getId, bind, Except.bind]
  · have hg := inv.general
    simp only [TagHandler.new, List.nil_append] at hg
    simp only [notify, TagHandler.getStatus]
    rw [hg, t2, t3]; simp
  · intro f
    have := inv.regs tag.index f
    simpa [TagHandler.new] using this
  · simp only [TagHandler.getStatus]
    rw [t2]
    have := inv.status tag.index
    simp only [TagHandler.new, AMap.get_nil, Option.isSome_none, Bool.false_xor] at this
    rw [this]
    simp only [if_true]
    rcases Nat.mod_two_eq_zero_or_one (tagTogglesOf tag.index ops) with hm | hm
    · have h' : (tagTogglesOf tag.index ops + 1) % 2 = 1 := by omega
      simp [hm, h']
    · have h' : (tagTogglesOf tag.index ops + 1) % 2 = 0 := by omega
      simp [hm, h']

example : JsTag.Ok ⟨⟨[], [⟨['a'], [], [], 0⟩, ⟨['b'], [], [], 1⟩], []⟩, 1⟩ := by
  refine ⟨?_, by decide⟩
  intro i t h
  rcases i with _ | _ | i <;> simp at h <;> subst h <;> rfl

/-! ## C39 — iterators -/

/-- Call `next` `k` times. -/
def drain (next : σ → σ × Option β) : Nat → σ → List (Option β)
  | 0, _ => []
  | k + 1, s => (next s).2 :: drain next k (next s).1

/-- If state `i` moves to state `i + 1` handing out `f i` while `i < n` and stays put afterwards, draining
hands out `f i, f (i+1), …, f (n-1)` and then nothing, forever. -/
theorem drain_spec {next : σ → σ × Option β} {st : Nat → σ} {f : Nat → β} {n : Nat}
    (h1 : ∀ i, i < n → next (st i) = (st (i + 1), some (f i)))
    (h2 : ∀ i, n ≤ i → next (st i) = (st i, none)) (k : Nat) : ∀ i, i ≤ n →
    drain next k (st i) = (List.range k).map fun j => if i + j < n then some (f (i + j)) else none := by
  induction k with
  | zero => intro i _; rfl
  | succ k ih =>
    intro i hi
    rw [drain, List.range_succ_eq_map, List.map_cons, List.map_map]
    by_cases h : i < n
    · rw [h1 i h, ih (i + 1) h]
      congr 1
      · simp [h]
      · apply List.map_congr_left
        intro j _
        simp only [Function.comp_apply, Nat.succ_eq_add_one]
        rw [show i + 1 + j = i + (j + 1) by omega]
    · have hn : i = n := by omega
      subst hn
      rw [h2 i (Nat.le_refl _), ih i (Nat.le_refl _)]
      congr 1
      · simp
      · apply List.map_congr_left
        intro j _
        have h3 : ¬ i + j < i := by omega
        have h4 : ¬ i + (j + 1) < i := by omega
        simp [h3, h4]

/-- Categories: position `i` first yields category `i`, then nothing forever. -/
theorem C39_categories (h : CategoryHandler) (k : Nat) :
    drain CategoryIter.nextItem k h.iter =
      (List.range k).map fun i =>
        if i < h.handle.categories.length then some ⟨h.handle, i, 0⟩ else none := by
  have := drain_spec (next := CategoryIter.nextItem) (st := fun i => ⟨h.handle, i⟩)
    (f := fun i => ⟨h.handle, i, 0⟩) (n := h.handle.categories.length)
    (fun i hi => by simp [CategoryIter.nextItem, hi])
    (fun i hi => by simp [CategoryIter.nextItem, hi]) k 0 (Nat.zero_le _)
  simpa [CategoryHandler.iter] using this

/-- Options of the category at position `c`: each once, in order, with name and keys. -/
theorem C39_options (handle : Classic) (c : Nat) (cat : Category) (hc : handle.categories[c]? = some cat)
    (k : Nat) :
    drain CategoryOptionIter.nextItem k ⟨handle, c, 0⟩ =
      (List.range k).map fun i => cat.options[i]?.map fun o => ⟨o.name, c, i⟩ := by
  cases hop : cat.options with
  | nil =>
    have := drain_spec (next := CategoryOptionIter.nextItem) (st := fun i => ⟨handle, c, i⟩)
      (f := fun i => (⟨[], c, i⟩ : ExportOption)) (n := 0) (fun i hi => by omega)
      (fun i _ => by simp [CategoryOptionIter.nextItem, hc, hop]) k 0 (Nat.le_refl _)
    simpa using this
  | cons o os =>
    have := drain_spec (next := CategoryOptionIter.nextItem) (st := fun i => ⟨handle, c, i⟩)
      (f := fun i => (⟨(cat.options[i]?.getD o).name, c, i⟩ : ExportOption)) (n := cat.options.length)
      (fun i hi => by simp [CategoryOptionIter.nextItem, hc, hi])
      (fun i hi => by simp [CategoryOptionIter.nextItem, hc, hi]) k 0 (Nat.zero_le _)
    rw [this]
    apply List.map_congr_left
    intro i _
    simp only [Nat.zero_add]
    rw [← hop]
    by_cases h : i < cat.options.length
    · simp [h]
    · simp [h]

/-- The name of an option iterator is its category's name. -/
theorem C39_name (handle : Classic) (c i : Nat) (cat : Category) (hc : handle.categories[c]? = some cat) :
    CategoryOptionIter.name ⟨handle, c, i⟩ = .ok cat.name := by
  simp [CategoryOptionIter.name, indexChecked, hc, bind, Except.bind]

/-- Tags: each once, in order, then nothing forever. -/
theorem C39_tags (h : TagHandler) (k : Nat) :
    drain TagIter.nextTag k h.tags =
      (List.range k).map fun i => if i < h.handle.tags.length then some ⟨h.handle, i⟩ else none := by
  have := drain_spec (next := TagIter.nextTag) (st := fun i => ⟨h.handle, i⟩)
    (f := fun i => ⟨h.handle, i⟩) (n := h.handle.tags.length)
    (fun i hi => by simp [TagIter.nextTag, hi])
    (fun i hi => by simp [TagIter.nextTag, hi]) k 0 (Nat.zero_le _)
  simpa [TagHandler.tags] using this

/-- The tag object handed out at position `i` carries the name of tag `i`. -/
theorem C39_tag_name (handle : Classic) (i : Nat) (t : Tag) (h : handle.tags[i]? = some t) :
    JsTag.getName ⟨handle, i⟩ = .ok t.name ∧ JsTag.getId ⟨handle, i⟩ = .ok t.id := by
  simp [JsTag.getName, JsTag.getId, JsTag.tag, h, bind, Except.bind]

example : (⟨[⟨['c'], [⟨['o'], 0, [], []⟩], false⟩], [], []⟩ : Classic).categories[0]? =
    some ⟨['c'], [⟨['o'], 0, [], []⟩], false⟩ := rfl

/-! ## C44 — the result producer -/

/-- If all ids to export exist (as they do for every producer made by a search, `C44_search`),
successive calls yield them in order, each once, then nothing forever. -/
theorem C44 (c : Container) (ids : List Nat) (hids : ∀ i ∈ ids, i < c.products.length) (k : Nat) :
    drain ProductProducer.nextProduct k (.new c ids) =
      (List.range k).map fun i => ids[i]?.map fun id => ⟨c, id⟩ := by
  have := drain_spec (next := ProductProducer.nextProduct) (st := fun i => ⟨c, ids, i⟩)
    (f := fun i => (⟨c, ids[i]?.getD 0⟩ : JsProduct)) (n := ids.length)
    (fun i hi => by
      have := hids ids[i] (List.getElem_mem hi)
      simp [ProductProducer.nextProduct, hi, this])
    (fun i hi => by simp [ProductProducer.nextProduct, hi]) k 0 (Nat.zero_le _)
  rw [ProductProducer.new, this]
  apply List.map_congr_left
  intro i _
  simp only [Nat.zero_add]
  by_cases h : i < ids.length <;> simp [h]

/-- Spec: the JavaScript number (units of `2^-1074`) is the one the `f32` (units of `2^-149`) stands for. -/
inductive SameNumber (x : F32) : JsNum → Prop
  | nan : x.val = .nan → SameNumber x .nan
  | inf (s : Bool) : x.val = .inf s → SameNumber x (.inf s)
  | fin (s : Bool) (m k : Nat) : x.val = .fin s m → k * 2 ^ 149 = m * 2 ^ 1074 → SameNumber x (.fin s k)

theorem two_pow_split {a b c : Nat} (h : a = b + c) : (2 : Nat) ^ a = 2 ^ b * 2 ^ c := by
  rw [h, Nat.pow_add]

theorem sameNumber_iff (x : F32) (n : JsNum) : SameNumber x n ↔ n = jsNumOfF32 x := by
  have e := two_pow_split (a := 1074) (b := 1074 - 149) (c := 149) (by decide)
  have hp : 0 < 2 ^ 149 := Nat.two_pow_pos 149
  unfold jsNumOfF32
  constructor
  · intro h
    cases h with
    | nan h => rw [h]
    | inf s h => rw [h]
    | fin s m k h hk =>
      rw [h]
      have : k = m * 2 ^ (1074 - 149) := by
        rw [e, ← Nat.mul_assoc] at hk
        exact Nat.eq_of_mul_eq_mul_right hp hk
      exact congrArg (F32.Val.fin s) this
  · rintro rfl
    cases h : x.val with
    | nan => exact .nan h
    | inf s => exact .inf s h
    | fin s m => exact .fin s m _ h (by rw [e, Nat.mul_assoc])

/-- Spec: the JavaScript number (units of `2^-1074`) is this integer. -/
def SameInteger (k : Nat) (n : JsNum) : Prop := ∃ m : Nat, n = .fin false m ∧ m = k * 2 ^ 1074

theorem sameInteger_iff (k : Nat) (n : JsNum) : SameInteger k n ↔ n = jsNumOfNat k := by
  unfold SameInteger jsNumOfNat
  constructor
  · rintro ⟨m, h1, h2⟩; exact h1.trans (congrArg (F32.Val.fin false) h2)
  · intro h; exact ⟨_, h, Eq.refl _⟩

/-- Spec: what a feature is as a number, if it is one. -/
def NumericOf (v : Option FeatureValue) (r : Option JsNum) : Prop :=
  (∀ f, v = some (.float f) → ∃ n, r = some n ∧ SameNumber f n) ∧
  (∀ k, v = some (.integer k) → ∃ n, r = some n ∧ SameInteger k.toNat n) ∧
  ((∀ f, v ≠ some (.float f)) → (∀ k, v ≠ some (.integer k)) → r = none)

/-- A yielded product reports the data of the catalogue's product with that id. -/
theorem C44_reports (c : Container) (id : Nat) (p : Product) (hp : c.products[id]? = some p) (key : Str) :
    JsProduct.getTitle ⟨c, id⟩ = .ok p.title ∧ JsProduct.getDescription ⟨c, id⟩ = .ok p.description ∧
    JsProduct.getId ⟨c, id⟩ = .ok p.id ∧
    JsProduct.stringFeature ⟨c, id⟩ key = .ok (match FeatureSet.get c.extra p key with
      | some (.string s) => some s
      | _ => none) ∧
    ∃ r, JsProduct.numericFeature ⟨c, id⟩ key = .ok r ∧ NumericOf (FeatureSet.get c.extra p key) r := by
  refine ⟨?_, ?_, ?_, ?_, ?_⟩
  · simp [JsProduct.getTitle, JsProduct.product, indexChecked, hp, bind, Except.bind]
  · simp [JsProduct.getDescription, JsProduct.product, indexChecked, hp, bind, Except.bind]
  · simp [JsProduct.getId, JsProduct.product, indexChecked, hp, bind, Except.bind]
  · simp only [JsProduct.stringFeature, JsProduct.product, indexChecked, hp, bind, Except.bind]
    cases FeatureSet.get c.extra p key with
    | none => rfl
    | some v => cases v <;> rfl
  · simp only [JsProduct.numericFeature, JsProduct.product, indexChecked, hp, bind, Except.bind]
    cases FeatureSet.get c.extra p key with
    | none => exact ⟨none, rfl, by simp [NumericOf]⟩
    | some v =>
      cases v with
      | string s => exact ⟨none, rfl, by simp [NumericOf]⟩
      | float f =>
        refine ⟨_, rfl, fun f' h => ⟨_, rfl, ?_⟩, fun k h => (by cases h), fun h => absurd rfl (h f)⟩
        cases h
        exact (sameNumber_iff _ _).2 rfl
      | integer k =>
        refine ⟨_, rfl, fun f' h => (by cases h), fun k' h => ⟨_, rfl, ?_⟩, fun _ h => absurd rfl (h k)⟩
        cases h
        exact ⟨_, rfl, rfl⟩

example : ∀ i ∈ [1, 0], i < (⟨[⟨[], ['a'], ⟨[], 0⟩, [], 0⟩, ⟨[], ['b'], ⟨[], 0⟩, [], 1⟩], .new, []⟩ :
    Container).products.length := by decide

end Idx
