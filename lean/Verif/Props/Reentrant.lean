import Verif.Lemmas.Reentrant
import Verif.Props.Handlers
/-! # C87: observers that call back into the crate

Programs are arbitrary: a `Script` chooses its next call by the answers so far, an observer runs a script that may depend
on everything that happened before. `depth` is the room for nested observers; a run that needs more gives `none`. -/
namespace Idx

/-- The states in which JavaScript code runs or has run: between the calls of a program, and inside observers at any
nesting. -/
inductive Reach (env : JsEnv) : JsWorld → Prop where
  | start (e : Engine) : Reach env (.start e)
  | ran {w w' : JsWorld} {s : Script} (depth : Nat) : Reach env w → runJs env depth w s = some w' → Reach env w'
  | inside {w w1 : JsWorld} {h : Nat} {v v' : Obj} {e : Edit} {pre post : List Call} {f : JsFn} {b : Bool} (depth : Nat) :
      Reach env w → w.objs[h]? = some ⟨v, some 0⟩ → v.edit e = some (.ok (v', pre ++ (f, b) :: post)) →
      notifyAll (observe env depth) { w.log (.called (.edit h e)) with objs := w.objs.set h ⟨v', none⟩ } pre = some w1 →
      Reach env (w1.log (.observed f b))

/-- Every handler not in use is a fresh one after its accepted calls. -/
structure ObjsInv (w : JsWorld) : Prop where
  value : ∀ (h : Nat) g, w.objs[h]? = some g →
    ∃ v : Obj, v.Fresh ∧ (g.flag ≠ none → v.after (editsOn h w.trace) = some g.value)
  absent : ∀ h : Nat, w.objs[h]? = none → editsOn h w.trace = []

theorem ObjsInv.rel {w w' : JsWorld} {es : List Event} (hi : ObjsInv w) (hr : Rel w w' es) : ObjsInv w' where
  value := by
    intro h g' e'
    cases e : w.objs[h]? with
    | none =>
      obtain ⟨v, hv, ha⟩ := hr.fresh h g' e e'
      refine ⟨v, hv, fun hf => ?_⟩
      rw [hr.trace, editsOn_append, hi.absent h e]
      exact ha hf
    | some g =>
      obtain ⟨v, hv, ha⟩ := hi.value h g e
      refine ⟨v, hv, fun hf => ?_⟩
      have hf' : g.flag ≠ none := fun hn => by
        have := hr.busy h g e hn
        rw [e'] at this
        cases this
        exact hf hn
      rw [hr.trace, editsOn_append, Obj.after_append, ha hf']
      exact hr.value h g g' e e' hf
  absent := by
    intro h e'
    obtain ⟨e, h2⟩ := hr.absent h e'
    rw [hr.trace, editsOn_append, hi.absent h e, h2]; rfl

theorem Reach.inv {env : JsEnv} {w : JsWorld} (hr : Reach env w) : ObjsInv w := by
  induction hr with
  | start e => exact ⟨fun h g e => by simp [JsWorld.start] at e, fun _ _ => rfl⟩
  | ran depth _ hs ih =>
    obtain ⟨es, r, _⟩ := runJs_rel hs
    exact ih.rel r
  | @inside w w1 h v v' e pre post f b depth _ hg _ hn ih =>
    obtain ⟨es, r, _⟩ := notifyAll_rel (observe_rel env depth) pre hn
    refine (ObjsInv.rel ?_ r).rel (.observed w1 f b)
    have hlt := (List.getElem?_eq_some_iff.1 hg).1
    have hed : ∀ x : Nat, editsOn x (w.log (.called (.edit h e))).trace = editsOn x w.trace := by
      intro x
      show editsOn x (w.trace ++ _) = _
      rw [editsOn_append]
      show _ ++ [] = _
      simp
    refine ⟨fun x g hx => ?_, fun x hx => ?_⟩
    · change (w.objs.set h ⟨v', none⟩)[x]? = some g at hx
      rw [List.getElem?_set] at hx
      split at hx
      · rename_i hh
        subst hh
        cases hx
        obtain ⟨v, hv, _⟩ := ih.value h _ hg
        exact ⟨v, hv, fun hf => absurd rfl hf⟩
      · obtain ⟨v, hv, ha⟩ := ih.value x g hx
        exact ⟨v, hv, fun hf => by show v.after (editsOn x (w.log _).trace) = _; rw [hed]; exact ha hf⟩
    · show editsOn x (w.log _).trace = []
      rw [hed]
      refine ih.absent x ?_
      change (w.objs.set h ⟨v', none⟩)[x]? = none at hx
      rw [List.getElem?_set] at hx
      split at hx
      · rename_i hh
        subst hh
        cases hx
      · exact hx

/-- While a handler is inside one of its `&mut self` methods (as it is for its observers), nothing that runs can change
it, and every call that names it is refused: also `search`, `get_status` and the removal of the observer itself. -/
theorem C87_busy {env : JsEnv} {depth : Nat} {w w' : JsWorld} {s : Script} {h : Nat} {v : Obj}
    (hb : w.objs[h]? = some ⟨v, none⟩) (hs : runJs env depth w s = some w') :
    w'.objs[h]? = some ⟨v, none⟩ ∧ ∃ es, w'.trace = w.trace ++ es ∧
      ∀ c r, .returned c r ∈ es → c.Uses h → r = .refused := by
  obtain ⟨es, r, _⟩ := runJs_rel hs
  exact ⟨r.busy h _ hb rfl, es, r.trace, r.refused h _ hb rfl⟩

/-- Inside an observer its handler is in use, and already has the new value. -/
theorem C87_inside {env : JsEnv} {w w1 : JsWorld} {h : Nat} {v v' : Obj} {e : Edit} {pre post : List Call} {f : JsFn}
    {b : Bool} (depth : Nat) (hg : w.objs[h]? = some ⟨v, some 0⟩) (_he : v.edit e = some (.ok (v', pre ++ (f, b) :: post)))
    (hn : notifyAll (observe env depth) { w.log (.called (.edit h e)) with objs := w.objs.set h ⟨v', none⟩ } pre = some w1) :
    (w1.log (.observed f b)).objs[h]? = some ⟨v', none⟩ := by
  obtain ⟨es, r, _⟩ := notifyAll_rel (observe_rel env depth) pre hn
  refine r.busy h _ ?_ rfl
  show (w.objs.set h ⟨v', none⟩)[h]? = _
  rw [List.getElem?_set]
  simp [(List.getElem?_eq_some_iff.1 hg).1]

/-! ## The handlers behave as if used by one caller at a time -/

/-- As a JavaScript call. -/
def CatOp.toEdit : CatOp → Edit
  | .toggle item => .toggle (.option item)
  | .addGeneral f => .addGeneral f
  | .addListener item f => .addListener (.option item) f
  | .removeListener item f => .removeListener (.option item) f

/-- As a JavaScript call. -/
def TagOp.toEdit : TagOp → Edit
  | .toggle tag => .toggle (.tag tag)
  | .addGeneral f => .addGeneral f
  | .addListener tag f => .addListener (.tag tag) f
  | .removeListener tag f => .removeListener (.tag tag) f

theorem after_cats (es : List Edit) : ∀ {h : CategoryHandler} {v : Obj}, (Obj.cats h).after es = some v →
    ∃ ops : List CatOp, es = ops.map CatOp.toEdit ∧ v = .cats (ops.foldl CatOp.run h) := by
  induction es with
  | nil => intro h v e; cases e; exact ⟨[], rfl, rfl⟩
  | cons e es ih =>
    intro h v hv
    rw [Obj.after] at hv
    match e, hv with
    | .toggle (.option item), hv =>
      obtain ⟨ops, h1, h2⟩ := ih hv
      exact ⟨.toggle item :: ops, by rw [h1]; rfl, h2⟩
    | .addGeneral f, hv =>
      obtain ⟨ops, h1, h2⟩ := ih hv
      exact ⟨.addGeneral f :: ops, by rw [h1]; rfl, h2⟩
    | .addListener (.option item) f, hv =>
      obtain ⟨ops, h1, h2⟩ := ih hv
      exact ⟨.addListener item f :: ops, by rw [h1]; rfl, h2⟩
    | .removeListener (.option item) f, hv =>
      obtain ⟨ops, h1, h2⟩ := ih hv
      exact ⟨.removeListener item f :: ops, by rw [h1]; rfl, h2⟩
    | .toggle (.tag _), hv => cases hv
    | .addListener (.tag _) _, hv => cases hv
    | .removeListener (.tag _) _, hv => cases hv

theorem after_tags (es : List Edit) : ∀ {h : TagHandler} {v : Obj}, (Obj.tags h).after es = some v →
    ∃ (ops : List TagOp) (h' : TagHandler), es = ops.map TagOp.toEdit ∧ ops.foldlM TagOp.run h = .ok h' ∧ v = .tags h' := by
  induction es with
  | nil => intro h v e; cases e; exact ⟨[], h, rfl, rfl, rfl⟩
  | cons e es ih =>
    intro h v hv
    rw [Obj.after] at hv
    match e, hv with
    | .toggle (.tag tag), hv =>
      simp only [Obj.edit] at hv
      cases ht : h.toggle tag with
      | error _ => rw [ht] at hv; cases hv
      | ok x =>
        rw [ht] at hv
        obtain ⟨ops, h', h1, h2, h3⟩ := ih hv
        refine ⟨.toggle tag :: ops, h', by rw [h1]; rfl, ?_, h3⟩
        rw [List.foldlM_cons, TagOp.run, ht]; exact h2
    | .addGeneral f, hv =>
      obtain ⟨ops, h', h1, h2, h3⟩ := ih hv
      exact ⟨.addGeneral f :: ops, h', by rw [h1]; rfl, h2, h3⟩
    | .addListener (.tag tag) f, hv =>
      simp only [Obj.edit] at hv
      cases ht : h.addTagListener tag f with
      | error _ => rw [ht] at hv; cases hv
      | ok x =>
        rw [ht] at hv
        obtain ⟨ops, h', h1, h2, h3⟩ := ih hv
        refine ⟨.addListener tag f :: ops, h', by rw [h1]; rfl, ?_, h3⟩
        rw [List.foldlM_cons, TagOp.run, ht]; exact h2
    | .removeListener (.tag tag) f, hv =>
      simp only [Obj.edit] at hv
      cases ht : h.removeTagListener tag f with
      | error _ => rw [ht] at hv; cases hv
      | ok x =>
        rw [ht] at hv
        obtain ⟨ops, h', h1, h2, h3⟩ := ih hv
        refine ⟨.removeListener tag f :: ops, h', by rw [h1]; rfl, ?_, h3⟩
        rw [List.foldlM_cons, TagOp.run, ht]; exact h2
    | .toggle (.option _), hv => cases hv
    | .addListener (.option _) _, hv => cases hv
    | .removeListener (.option _) _, hv => cases hv

/-- Whatever observers do: a category handler that is not in use is a fresh handler after the accepted calls, in the order
in which they returned. -/
theorem C87_categories {env : JsEnv} {w : JsWorld} (hr : Reach env w) {h n : Nat} {ch : CategoryHandler}
    (hg : w.objs[h]? = some ⟨.cats ch, some n⟩) :
    ∃ (c : Classic) (ops : List CatOp), editsOn h w.trace = ops.map CatOp.toEdit ∧ ch = ops.foldl CatOp.run (.new c) := by
  obtain ⟨v, ⟨c, hv⟩, ha⟩ := hr.inv.value h _ hg
  have ha := ha nofun
  rcases hv with rfl | rfl
  · obtain ⟨ops, h1, h2⟩ := after_cats _ ha
    cases h2
    exact ⟨c, ops, h1, rfl⟩
  · obtain ⟨ops, h', h1, h2, h3⟩ := after_tags _ ha
    cases h3

/-- The same for tag handlers. -/
theorem C87_tags {env : JsEnv} {w : JsWorld} (hr : Reach env w) {h n : Nat} {th : TagHandler}
    (hg : w.objs[h]? = some ⟨.tags th, some n⟩) :
    ∃ (c : Classic) (ops : List TagOp), editsOn h w.trace = ops.map TagOp.toEdit ∧
      ops.foldlM TagOp.run (TagHandler.new c) = .ok th := by
  obtain ⟨v, ⟨c, hv⟩, ha⟩ := hr.inv.value h _ hg
  have ha := ha nofun
  rcases hv with rfl | rfl
  · obtain ⟨ops, h1, h2⟩ := after_cats _ ha
    cases h2
  · obtain ⟨ops, h', h1, h2, h3⟩ := after_tags _ ha
    cases h3
    exact ⟨c, ops, h1, h2⟩

/-- How often the option with these keys was toggled on `h`, refused calls not counted. -/
def optionToggles (h : Nat) (k : Nat × Nat) (es : List Event) : Nat :=
  es.countP fun
    | .returned (.edit h' (.toggle (.option item))) .done => h' == h && (item.catId, item.optionId) == k
    | _ => false

/-- How often the tag at this position was toggled on `h`, refused calls not counted. -/
def tagToggles (h : Nat) (i : Nat) (es : List Event) : Nat :=
  es.countP fun
    | .returned (.edit h' (.toggle (.tag tag))) .done => h' == h && tag.index == i
    | _ => false

theorem countP_filterMap' {f : α → Option β} {p : β → Bool} {q : α → Bool} (l : List α)
    (h : ∀ a, q a = match f a with | some b => p b | none => false) : l.countP q = (l.filterMap f).countP p := by
  induction l with
  | nil => rfl
  | cons a l ih =>
    rw [List.countP_cons, ih, h a, List.filterMap_cons]
    cases f a with
    | none => simp
    | some b => simp [List.countP_cons]

theorem optionToggles_eq {h : Nat} {k : Nat × Nat} {es : List Event} {ops : List CatOp}
    (he : editsOn h es = ops.map CatOp.toEdit) : optionToggles h k es = togglesOf k ops := by
  rw [optionToggles, countP_filterMap' (f := Event.editOn h)
    (p := fun | .toggle (.option item) => (item.catId, item.optionId) == k | _ => false)]
  · change (editsOn h es).countP _ = _
    rw [he, togglesOf, List.countP_map]
    congr
    funext op
    cases op <;> rfl
  · intro ev
    cases ev with
    | called c => rfl
    | observed f b => rfl
    | returned c r =>
      cases c with
      | edit h' e =>
        cases r with
        | done =>
          simp only [Event.editOn]
          by_cases hh : h' = h
          · rw [if_pos hh, hh]
            cases e with
            | toggle i => cases i <;> simp
            | addGeneral f => rfl
            | addListener i f => rfl
            | removeListener i f => rfl
          · rw [if_neg hh]
            cases e with
            | toggle i => cases i <;> simp [hh]
            | addGeneral f => rfl
            | addListener i f => rfl
            | removeListener i f => rfl
        | _ => cases e with
          | toggle i => cases i <;> rfl
          | _ => rfl
      | _ => rfl

theorem tagToggles_eq {h : Nat} {k : Nat} {es : List Event} {ops : List TagOp}
    (he : editsOn h es = ops.map TagOp.toEdit) : tagToggles h k es = tagTogglesOf k ops := by
  rw [tagToggles, countP_filterMap' (f := Event.editOn h)
    (p := fun | .toggle (.tag tag) => tag.index == k | _ => false)]
  · change (editsOn h es).countP _ = _
    rw [he, tagTogglesOf, List.countP_map]
    congr
    funext op
    cases op <;> rfl
  · intro ev
    cases ev with
    | called c => rfl
    | observed f b => rfl
    | returned c r =>
      cases c with
      | edit h' e =>
        cases r with
        | done =>
          simp only [Event.editOn]
          by_cases hh : h' = h
          · rw [if_pos hh, hh]
            cases e with
            | toggle i => cases i <;> simp
            | addGeneral f => rfl
            | addListener i f => rfl
            | removeListener i f => rfl
          · rw [if_neg hh]
            cases e with
            | toggle i => cases i <;> simp [hh]
            | addGeneral f => rfl
            | addListener i f => rfl
            | removeListener i f => rfl
        | _ => cases e with
          | toggle i => cases i <;> rfl
          | _ => rfl
      | _ => rfl

/-- `get_status` of an option: the parity of its accepted toggles, wherever in the program they were made. -/
theorem C87_status {env : JsEnv} {w : JsWorld} (hr : Reach env w) {h n : Nat} {ch : CategoryHandler}
    (hg : w.objs[h]? = some ⟨.cats ch, some n⟩) (item : ExportOption) :
    ch.getStatus item = decide (optionToggles h (item.catId, item.optionId) w.trace % 2 = 1) := by
  obtain ⟨c, ops, h1, rfl⟩ := C87_categories hr hg
  rw [C37_categories, optionToggles_eq h1]

/-- The accepted calls on `h` only name tags the crate handed out. -/
def TagCallsOk (h : Nat) (es : List Event) : Prop :=
  ∀ e ∈ editsOn h es, match e with
    | .toggle (.tag t) | .addListener (.tag t) _ | .removeListener (.tag t) _ => t.Ok
    | _ => True

theorem TagCallsOk.ops {h : Nat} {es : List Event} {ops : List TagOp} (hk : TagCallsOk h es)
    (he : editsOn h es = ops.map TagOp.toEdit) : ∀ op ∈ ops, op.Ok := by
  intro op hop
  have := hk op.toEdit (by rw [he]; exact List.mem_map_of_mem hop)
  cases op <;> exact this

/-- `get_status` of a tag. -/
theorem C87_tag_status {env : JsEnv} {w : JsWorld} (hr : Reach env w) {h n : Nat} {th : TagHandler}
    (hg : w.objs[h]? = some ⟨.tags th, some n⟩) (hk : TagCallsOk h w.trace) (tag : JsTag) :
    th.getStatus tag = decide (tagToggles h tag.index w.trace % 2 = 1) := by
  obtain ⟨c, ops, h1, h2⟩ := C87_tags hr hg
  obtain ⟨th', e, hs⟩ := C37_tags c ops (hk.ops h1)
  rw [h2] at e
  cases e
  rw [hs, tagToggles_eq h1]

/-- Toggling an option of a free handler is accepted and calls, itself, exactly the observers registered by the accepted
calls: those of the option (one call per live registration), then the general ones in order, all with the new state,
whatever these observers do meanwhile. -/
theorem C87_notified {env : JsEnv} {w w' : JsWorld} (hr : Reach env w) {h depth : Nat} {ch : CategoryHandler}
    (hg : w.objs[h]? = some ⟨.cats ch, some 0⟩) {item : ExportOption} {r : Reply}
    (hp : w.perform env (observe env depth) (.edit h (.toggle (.option item))) = some (w', r)) :
    r = .done ∧ ∃ (mid : List Event) (own : List JsFn) (ops : List CatOp),
      w'.trace = w.trace ++ .called (.edit h (.toggle (.option item))) ::
        (mid ++ [.returned (.edit h (.toggle (.option item))) .done]) ∧
      editsOn h w.trace = ops.map CatOp.toEdit ∧
      directCalls 0 mid = (own ++ generalOf ops).map (fun f =>
        (f, decide ((optionToggles h (item.catId, item.optionId) w.trace + 1) % 2 = 1))) ∧
      ∀ f, own.count f = registrations (item.catId, item.optionId) f ops 0 := by
  obtain ⟨c, ops, h1, rfl⟩ := C87_categories hr hg
  obtain ⟨mid, r1, _, h3⟩ := perform_rel (observe_rel env depth) hp
  obtain ⟨own, c1, c2, c3⟩ := C38_categories c ops item
  obtain ⟨rfl, h5⟩ := h3 h _ _ _ _ rfl hg rfl
  refine ⟨rfl, mid, own, ops, r1.trace, h1, ?_, c2⟩
  rw [h5, c1, c3, optionToggles_eq h1]

/-- Every other accepted call on a handler calls no observer. -/
theorem C87_silent {env : JsEnv} {w w' : JsWorld} {h : Nat} {onCall : JsWorld → JsFn → Bool → Option JsWorld} {e : Edit}
    (hp : w.perform env onCall (.edit h e) = some (w', .done)) (he : ∀ i, e ≠ .toggle i) :
    w'.trace = w.trace ++ [.called (.edit h e), .returned (.edit h e) .done] := by
  have quiet : ∀ (v v' : Obj) (calls : List Call), v.edit e = some (.ok (v', calls)) → calls = [] := by
    intro v v' calls hv
    cases e with
    | toggle i => exact absurd rfl (he i)
    | addGeneral f =>
      cases v <;> cases hv <;> rfl
    | addListener i f =>
      cases v with
      | cats ch =>
        cases i with
        | option item => cases hv; rfl
        | tag t => cases hv
      | tags th =>
        cases i with
        | option item => cases hv
        | tag t =>
          simp only [Obj.edit, Option.some.injEq] at hv
          cases hm : th.addTagListener t f with
          | error p => rw [hm] at hv; cases hv
          | ok x => rw [hm] at hv; cases hv; rfl
    | removeListener i f =>
      cases v with
      | cats ch =>
        cases i with
        | option item => cases hv; rfl
        | tag t => cases hv
      | tags th =>
        cases i with
        | option item => cases hv
        | tag t =>
          simp only [Obj.edit, Option.some.injEq] at hv
          cases hm : th.removeTagListener t f with
          | error p => rw [hm] at hv; cases hv
          | ok x => rw [hm] at hv; cases hv; rfl
  have log_objs : (w.log (.called (.edit h e))).objs = w.objs := rfl
  simp only [JsWorld.perform, JsWorld.step, log_objs] at hp
  match hg : w.objs[h]? with
  | none => rw [hg] at hp; cases hp
  | some ⟨v, none⟩ => rw [hg] at hp; cases hp
  | some ⟨v, some (n + 1)⟩ => rw [hg] at hp; cases hp
  | some ⟨v, some 0⟩ =>
    rw [hg] at hp
    match hv : v.edit e with
    | none => simp only [hv] at hp; cases hp
    | some (.error _) => simp only [hv] at hp; cases hp
    | some (.ok (v', calls)) =>
      have := quiet _ _ _ hv
      subst this
      simp only [hv, notifyAll, Option.some.injEq, Prod.mk.injEq] at hp
      rw [← hp.1]
      simp [JsWorld.log]

/-- The same for a tag. -/
theorem C87_tag_notified {env : JsEnv} {w w' : JsWorld} (hr : Reach env w) {h depth : Nat} {th : TagHandler}
    (hg : w.objs[h]? = some ⟨.tags th, some 0⟩) (hk : TagCallsOk h w.trace) {tag : JsTag} (htag : tag.Ok) {r : Reply}
    (hp : w.perform env (observe env depth) (.edit h (.toggle (.tag tag))) = some (w', r)) :
    r = .done ∧ ∃ (mid : List Event) (own : List JsFn) (ops : List TagOp),
      w'.trace = w.trace ++ .called (.edit h (.toggle (.tag tag))) ::
        (mid ++ [.returned (.edit h (.toggle (.tag tag))) .done]) ∧
      editsOn h w.trace = ops.map TagOp.toEdit ∧
      directCalls 0 mid = (own ++ tagGeneralOf ops).map (fun f =>
        (f, decide ((tagToggles h tag.index w.trace + 1) % 2 = 1))) ∧
      ∀ f, own.count f = tagRegistrations tag.index f ops 0 := by
  obtain ⟨c, ops, h1, h2⟩ := C87_tags hr hg
  obtain ⟨mid, r1, _, h3⟩ := perform_rel (observe_rel env depth) hp
  obtain ⟨th', calls, own, c0, c1, c2, c3⟩ := C38_tags c ops (hk.ops h1) th h2 tag htag
  obtain ⟨rfl, h5⟩ := h3 h _ _ (.tags th') calls rfl hg (by simp [Obj.edit, c0, Except.map])
  refine ⟨rfl, mid, own, ops, r1.trace, h1, ?_, c2⟩
  rw [h5, c1, c3, tagToggles_eq h1]

/-! ## Borrows that are never given back -/

/-- If nothing trapped and no search was refused, all handlers can be used afterwards. -/
theorem C87_clean {env : JsEnv} {depth : Nat} {e : Engine} {w : JsWorld} {s : Script}
    (hs : runJs env depth (.start e) s = some w)
    (hp : Polite w.trace) {h : Nat} {g : Guarded Obj} (hg : w.objs[h]? = some g) : g.flag = some 0 := by
  obtain ⟨es, r, _⟩ := runJs_rel hs
  have ht : w.trace = es := r.trace
  have := r.clean (ht ▸ hp) h g hg
  simpa [JsWorld.start] using this

/-- A search from an observer of the tag handler is refused and leaves the category handler borrowed: from then on, for
the rest of any program, it can neither be toggled nor given observers. -/
theorem C87_leak {env : JsEnv} {onCall : JsWorld → JsFn → Bool → Option JsWorld} {w w' : JsWorld} {h k n : Nat}
    {ch : CategoryHandler} {th : TagHandler} (hh : w.objs[h]? = some ⟨.cats ch, some n⟩)
    (hk : w.objs[k]? = some ⟨.tags th, none⟩) {input : Str} {order : Option Str} {filter : List (Str × JsValue)} {r : Reply}
    (hp : w.perform env onCall (.search input h k order filter) = some (w', r)) :
    r = .refused ∧ ∀ depth s w'', runJs env depth w' s = some w'' →
      (∃ m, w''.objs[h]? = some ⟨.cats ch, some (m + 1)⟩) ∧
      ∃ es, w''.trace = w'.trace ++ es ∧ ∀ e r, .returned (.edit h e) r ∈ es → r = .refused := by
  have log_objs : (w.log (.called (.search input h k order filter))).objs = w.objs := rfl
  simp only [JsWorld.perform, JsWorld.step, log_objs, hh, hk] at hp
  cases hp
  refine ⟨rfl, fun depth s w'' hs => ?_⟩
  obtain ⟨es, rel, _⟩ := runJs_rel hs
  have hset : (w.objs.set h ⟨.cats ch, some (n + 1)⟩)[h]? = some ⟨.cats ch, some (n + 1)⟩ := by
    rw [List.getElem?_set]
    simp [(List.getElem?_eq_some_iff.1 hh).1]
  have hsh := rel.shared h _ n hset rfl
  refine ⟨?_, es, rel.trace, hsh⟩
  obtain ⟨g', m, e1, e2, hle⟩ := rel.counts h _ n hset rfl
  have hv := rel.value h _ g' hset e1 (by rw [e2]; nofun)
  have hno : editsOn h es = [] := by
    rw [editsOn, List.filterMap_eq_nil_iff]
    intro ev hev
    cases ev with
    | called c => rfl
    | observed f b => rfl
    | returned c r =>
      cases c with
      | edit h' e =>
        by_cases hh : h' = h
        · subst hh
          have := hsh e r hev
          subst this
          rfl
        · cases r with
          | done => simp [Event.editOn, hh]
          | _ => rfl
      | _ => rfl
  rw [hno] at hv
  obtain ⟨m, rfl⟩ : ∃ k, m = k + 1 := ⟨m - 1, by omega⟩
  refine ⟨m, ?_⟩
  rw [e1]
  cases g'
  cases e2
  cases hv
  rfl

/-! ## Nesting -/

/-- The program never asks for a new handler. -/
def Script.Static : Script → Prop
  | .finish => True
  | .call c next => c ≠ .getCategories ∧ c ≠ .getTags ∧ ∀ r, (next r).Static

/-- The handlers that can be toggled. -/
def freeObjs (w : JsWorld) : Nat := w.objs.countP fun g => g.flag == some 0

theorem countP_le_pointwise {p q : α → Bool} : ∀ {a b : List α}, b.length = a.length →
    (∀ (i : Nat) x y, a[i]? = some x → b[i]? = some y → q y = true → p x = true) → b.countP q ≤ a.countP p := by
  intro a
  induction a with
  | nil => intro b hl _; cases b with
    | nil => simp
    | cons _ _ => cases hl
  | cons x a ih =>
    intro b hl h
    cases b with
    | nil => cases hl
    | cons y b =>
      rw [List.countP_cons, List.countP_cons]
      have h1 := ih (b := b) (by simpa using hl) fun i x y hx hy => h (i + 1) x y hx hy
      have h2 := h 0 x y rfl rfl
      by_cases hq : q y = true
      · simp [hq, h2 hq]; omega
      · simp [hq]; omega

theorem Rel.free_le {w w' : JsWorld} {es : List Event} (hr : Rel w w' es) (hl : w'.objs.length = w.objs.length) :
    freeObjs w' ≤ freeObjs w := by
  refine countP_le_pointwise hl fun i x y hx hy hq => ?_
  have hq : y.flag = some 0 := by simpa using hq
  match hf : x.flag with
  | none =>
    have := hr.busy i x hx hf
    rw [hy] at this
    cases this
    rw [hf] at hq
    cases hq
  | some 0 => rfl
  | some (n + 1) =>
    obtain ⟨g', m, e1, e2, hle⟩ := hr.counts i x n hx hf
    rw [hy] at e1
    cases e1
    rw [hq] at e2
    cases e2
    omega

/-- A call other than `get_categories`, `get_tags` succeeds and adds no handler, if its observers do so. -/
theorem perform_static {env : JsEnv} {onCall : JsWorld → JsFn → Bool → Option JsWorld} {w : JsWorld} {c : JsCall}
    (hc : c ≠ .getCategories ∧ c ≠ .getTags)
    (hn : ∀ h v v' e calls, c = .edit h e → w.objs[h]? = some ⟨v, some 0⟩ → v.edit e = some (.ok (v', calls)) →
      ∃ w2, notifyAll onCall { w.log (.called c) with objs := w.objs.set h ⟨v', none⟩ } calls = some w2 ∧
        w2.objs.length = w.objs.length) :
    ∃ w' r, w.perform env onCall c = some (w', r) ∧ w'.objs.length = w.objs.length := by
  have log_objs : ∀ c, (w.log (.called c)).objs = w.objs := fun _ => rfl
  unfold JsWorld.perform
  match c, hc, hn with
  | .initialize file, _, _ =>
    simp only [JsWorld.step]
    match (w.log (.called (.initialize file))).engine.initialize env.t file with
    | (e, .ok b) => exact ⟨_, _, rfl, rfl⟩
    | (e, .error b) => exact ⟨_, _, rfl, rfl⟩
  | .getCategories, hc, _ => exact absurd rfl hc.1
  | .getTags, hc, _ => exact absurd rfl hc.2
  | .edit h e, _, hn =>
    simp only [JsWorld.step, log_objs]
    match hg : w.objs[h]? with
    | none => exact ⟨_, _, rfl, rfl⟩
    | some ⟨v, none⟩ => exact ⟨_, _, rfl, rfl⟩
    | some ⟨v, some (n + 1)⟩ => exact ⟨_, _, rfl, rfl⟩
    | some ⟨v, some 0⟩ =>
      match hv : v.edit e with
      | none => simp only [hv]; exact ⟨_, _, rfl, rfl⟩
      | some (.error _) => simp only [hv]; exact ⟨_, _, rfl, by simp [JsWorld.log]⟩
      | some (.ok (v', calls)) =>
        obtain ⟨w2, h1, h2⟩ := hn h v v' e calls rfl hg hv
        simp only [hv, h1]
        exact ⟨_, _, rfl, by simp [JsWorld.log, release, h2]⟩
  | .status h i, _, _ =>
    simp only [JsWorld.step, log_objs]
    match w.objs[h]? with
    | none => exact ⟨_, _, rfl, rfl⟩
    | some ⟨v, none⟩ => exact ⟨_, _, rfl, rfl⟩
    | some ⟨v, some n⟩ =>
      match hs : v.status i with
      | none => simp only [hs]; exact ⟨_, _, rfl, rfl⟩
      | some b => simp only [hs]; exact ⟨_, _, rfl, rfl⟩
  | .search input cats tags order filter, _, _ =>
    simp only [JsWorld.step, log_objs]
    match w.objs[cats]? with
    | none => exact ⟨_, _, rfl, rfl⟩
    | some ⟨.tags _, _⟩ => exact ⟨_, _, rfl, rfl⟩
    | some ⟨.cats _, none⟩ => exact ⟨_, _, rfl, rfl⟩
    | some ⟨.cats ch, some n⟩ =>
      match w.objs[tags]? with
      | none => exact ⟨_, _, rfl, rfl⟩
      | some ⟨.cats _, _⟩ => exact ⟨_, _, rfl, rfl⟩
      | some ⟨.tags th, none⟩ => exact ⟨_, _, rfl, by simp [JsWorld.log]⟩
      | some ⟨.tags th, some m⟩ =>
        simp only
        match (w.log (.called (.search input cats tags order filter))).engine.search .trap
            (env.order (w.log (.called (.search input cats tags order filter))).trace) env.lower input ch th order filter with
        | (e, .ok q) => exact ⟨_, _, rfl, rfl⟩
        | (e, .error _) => exact ⟨_, _, rfl, by simp [JsWorld.log]⟩

theorem freeObjs_set {w : JsWorld} {h : Nat} {v v' : Obj} (hg : w.objs[h]? = some ⟨v, some 0⟩) :
    ((w.objs.set h ⟨v', none⟩).countP fun g => g.flag == some 0) + 1 = freeObjs w := by
  obtain ⟨hlt, he⟩ := List.getElem?_eq_some_iff.1 hg
  unfold freeObjs
  rw [List.countP_set hlt, he]
  have : 0 < w.objs.countP fun g => g.flag == some 0 := List.countP_pos_iff.2 ⟨_, List.mem_of_getElem? hg, rfl⟩
  simp
  omega

theorem static_runs {env : JsEnv} (hfns : ∀ f b es, (env.fns f b es).Static) (depth : Nat) :
    ∀ (s : Script) (w : JsWorld), s.Static → freeObjs w ≤ depth →
      ∃ w', runScript env (observe env depth) w s = some w' ∧ w'.objs.length = w.objs.length := by
  induction depth with
  | zero =>
    intro s
    induction s with
    | finish => intro w _ _; exact ⟨w, rfl, rfl⟩
    | call c next ih =>
      intro w hs hd
      obtain ⟨w1, r, h1, h2⟩ := perform_static (env := env) (onCall := observe env 0) ⟨hs.1, hs.2.1⟩
        (fun h v v' e calls _ hg _ => by have := freeObjs_set (w := w) (v' := v') hg; omega)
      obtain ⟨mid, rel, _⟩ := perform_rel (observe_rel env 0) h1
      obtain ⟨w', h3, h4⟩ := ih r w1 (hs.2.2 r) (Nat.le_trans (rel.free_le h2) hd)
      exact ⟨w', by rw [runScript, h1]; exact h3, h4.trans h2⟩
  | succ depth ihd =>
    intro s
    induction s with
    | finish => intro w _ _; exact ⟨w, rfl, rfl⟩
    | call c next ih =>
      intro w hs hd
      have notify : ∀ (calls : List Call) (w : JsWorld), freeObjs w ≤ depth →
          ∃ w2, notifyAll (observe env (depth + 1)) w calls = some w2 ∧ w2.objs.length = w.objs.length := by
        intro calls
        induction calls with
        | nil => intro w _; exact ⟨w, rfl, rfl⟩
        | cons x calls ihc =>
          obtain ⟨f, b⟩ := x
          intro w hw
          obtain ⟨w1, h1, h2⟩ := ihd (env.fns f b (w.log (.observed f b)).trace) (w.log (.observed f b)) (hfns ..) hw
          obtain ⟨es, rel, _⟩ := runScript_rel (observe_rel env depth) _ h1
          obtain ⟨w2, h3, h4⟩ := ihc w1 (Nat.le_trans (rel.free_le h2) hw)
          refine ⟨w2, ?_, h4.trans h2⟩
          rw [notifyAll, observe, h1]
          exact h3
      obtain ⟨w1, r, h1, h2⟩ := perform_static (env := env) (onCall := observe env (depth + 1)) ⟨hs.1, hs.2.1⟩
        (fun h v v' e calls _ hg _ => by
          have hf := freeObjs_set (w := w) (v' := v') hg
          obtain ⟨w2, h1, h2⟩ := notify calls { w.log (.called c) with objs := w.objs.set h ⟨v', none⟩ }
            (by show List.countP _ (w.objs.set h ⟨v', none⟩) ≤ _; omega)
          exact ⟨w2, h1, by simpa using h2⟩)
      obtain ⟨mid, rel, _⟩ := perform_rel (observe_rel env (depth + 1)) h1
      obtain ⟨w', h3, h4⟩ := ih r w1 (hs.2.2 r) (Nat.le_trans (rel.free_le h2) hd)
      exact ⟨w', by rw [runScript, h1]; exact h3, h4.trans h2⟩

/-- Observers that ask for no new handlers cannot recurse without end: at most as many are nested as there are free
handlers, whatever they toggle. -/
theorem C87_depth {env : JsEnv} (hfns : ∀ f b es, (env.fns f b es).Static) {s : Script} (hs : s.Static) (w : JsWorld)
    {depth : Nat} (hd : freeObjs w ≤ depth) : ∃ w', runJs env depth w s = some w' := by
  obtain ⟨w', h, _⟩ := static_runs hfns depth s w hs hd
  exact ⟨w', h⟩

theorem notifyAll_mono {f g : JsWorld → JsFn → Bool → Option JsWorld}
    (hm : ∀ w x b w', f w x b = some w' → g w x b = some w') (calls : List Call) : ∀ {w w' : JsWorld},
    notifyAll f w calls = some w' → notifyAll g w calls = some w' := by
  induction calls with
  | nil => intro w w' h; exact h
  | cons x calls ih =>
    obtain ⟨x, b⟩ := x
    intro w w' h
    rw [notifyAll] at h ⊢
    cases h1 : f (w.log (.observed x b)) x b with
    | none => rw [h1] at h; cases h
    | some w1 => rw [h1] at h; rw [hm _ _ _ _ h1]; exact ih h

theorem perform_mono {env : JsEnv} {f g : JsWorld → JsFn → Bool → Option JsWorld}
    (hm : ∀ w x b w', f w x b = some w' → g w x b = some w') {w : JsWorld} {c : JsCall} {r : JsWorld × Reply}
    (h : w.perform env f c = some r) : w.perform env g c = some r := by
  cases c with
  | edit i e =>
    simp only [JsWorld.perform, JsWorld.step] at h ⊢
    match hg : (w.log (.called (.edit i e))).objs[i]?, h with
    | none, h => exact h
    | some ⟨v, none⟩, h => exact h
    | some ⟨v, some (n + 1)⟩, h => exact h
    | some ⟨v, some 0⟩, h =>
      simp only at h ⊢
      match hv : v.edit e, h with
      | none, h => exact h
      | some (.error _), h => exact h
      | some (.ok (v', calls)), h =>
        simp only at h ⊢
        cases hn : notifyAll f { w.log (.called (.edit i e)) with
            objs := (w.log (.called (.edit i e))).objs.set i ⟨v', none⟩ } calls with
        | none => rw [hn] at h; cases h
        | some w2 => rw [hn] at h; rw [notifyAll_mono hm calls hn]; exact h
  | «initialize» file => exact h
  | getCategories => exact h
  | getTags => exact h
  | status i x => exact h
  | search input cats tags order filter => exact h

theorem runScript_mono {env : JsEnv} {f g : JsWorld → JsFn → Bool → Option JsWorld}
    (hm : ∀ w x b w', f w x b = some w' → g w x b = some w') (s : Script) : ∀ {w w' : JsWorld},
    runScript env f w s = some w' → runScript env g w s = some w' := by
  induction s with
  | finish => intro w w' h; exact h
  | call c next ih =>
    intro w w' h
    rw [runScript] at h ⊢
    cases h1 : w.perform env f c with
    | none => rw [h1] at h; cases h
    | some x =>
      rw [h1] at h
      rw [perform_mono hm h1]
      exact ih _ h

theorem observe_mono (env : JsEnv) (depth : Nat) : ∀ w x b w', observe env depth w x b = some w' →
    observe env (depth + 1) w x b = some w' := by
  induction depth with
  | zero => intro w x b w' h; cases h
  | succ depth ih => intro w x b w' h; exact runScript_mono ih _ h

/-- A run that does not need more stack is the same with more. -/
theorem C87_stack {env : JsEnv} {depth more : Nat} {w w' : JsWorld} {s : Script} (h : runJs env depth w s = some w') :
    runJs env (depth + more) w s = some w' := by
  induction more with
  | zero => exact h
  | succ more ih => exact runScript_mono (observe_mono env _) s ih

/-- JavaScript function 0: get a category handler, observe it, toggle something. -/
def spawn : Script :=
  .call .getCategories fun
    | .handler (some id) => .call (.edit id (.addGeneral 0)) fun _ => .call (.edit id (.toggle (.option ⟨[], 0, 0⟩))) fun _ => .finish
    | _ => .finish

theorem perform_getCategories (env : JsEnv) (onCall : JsWorld → JsFn → Bool → Option JsWorld) {w : JsWorld} {c : Classic}
    (hw : w.engine.classic = ⟨.free, some c⟩) :
    ∃ w', w.perform env onCall .getCategories = some (w', .handler (some w.objs.length)) ∧ w'.engine = w.engine ∧
      w'.objs = w.objs ++ [Guarded.mk (.cats (.new c)) (some 0)] := by
  have hc : (w.log (.called .getCategories)).engine.getCategories = .ok (some (.new c)) := by
    show (do let index ← w.engine.classic.lockUnwrap; _) = _
    rw [hw]; rfl
  have : w.perform env onCall .getCategories =
      some ({ w.log (.called .getCategories) with objs := w.objs ++ [Guarded.mk (Obj.cats (.new c)) (some 0)] }.log
        (.returned .getCategories (.handler (some w.objs.length))), .handler (some w.objs.length)) := by
    simp only [JsWorld.perform, JsWorld.step, hc]; rfl
  exact ⟨_, this, rfl, rfl⟩

/-- Getting a handler makes a new object, with nothing selected and no observers; JavaScript is given that object and no other one
changes. -/
theorem C87_get (env : JsEnv) (onCall : JsWorld → JsFn → Bool → Option JsWorld) {w : JsWorld} {c : Classic}
    (hw : w.engine.classic = ⟨.free, some c⟩) :
    (∃ w' k, w.perform env onCall .getCategories = some (w', .handler (some k)) ∧ w'.engine = w.engine ∧ w.objs[k]? = none ∧
      w'.objs[k]? = some ⟨.cats ⟨c, [], [], []⟩, some 0⟩ ∧ ∀ j, j ≠ k → w'.objs[j]? = w.objs[j]?) ∧
    ∃ w' k, w.perform env onCall .getTags = some (w', .handler (some k)) ∧ w'.engine = w.engine ∧ w.objs[k]? = none ∧
      w'.objs[k]? = some ⟨.tags ⟨c, [], [], []⟩, some 0⟩ ∧ ∀ j, j ≠ k → w'.objs[j]? = w.objs[j]? := by
  have last : ∀ (g : Guarded Obj), (w.objs ++ [g])[w.objs.length]? = some g ∧ ∀ j, j ≠ w.objs.length → (w.objs ++ [g])[j]? = w.objs[j]? := by
    intro g
    refine ⟨by simp, fun j hj => ?_⟩
    rw [List.getElem?_append]
    split
    · rfl
    · rw [List.getElem?_eq_none (by simp; omega), List.getElem?_eq_none (by omega)]
  constructor
  · obtain ⟨w', h1, h2, h3⟩ := perform_getCategories env onCall hw
    exact ⟨w', _, h1, h2, List.getElem?_eq_none (Nat.le_refl _), h3 ▸ last _⟩
  · have hc : (w.log (.called .getTags)).engine.getTags = .ok (some (.new c)) := by
      show (do let index ← w.engine.classic.lockUnwrap; _) = _
      rw [hw]; rfl
    have : w.perform env onCall .getTags =
        some ({ w.log (.called .getTags) with objs := w.objs ++ [Guarded.mk (Obj.tags (.new c)) (some 0)] }.log
          (.returned .getTags (.handler (some w.objs.length))), .handler (some w.objs.length)) := by
      simp only [JsWorld.perform, JsWorld.step, hc]; rfl
    exact ⟨_, _, this, rfl, List.getElem?_eq_none (Nat.le_refl _), last _⟩

theorem perform_edit_quiet (env : JsEnv) (onCall : JsWorld → JsFn → Bool → Option JsWorld) {w : JsWorld} {h : Nat} {e : Edit}
    {v v' : Obj} (hg : w.objs[h]? = some ⟨v, some 0⟩) (hv : v.edit e = some (.ok (v', []))) :
    ∃ w', w.perform env onCall (.edit h e) = some (w', .done) ∧ w'.engine = w.engine ∧
      w'.objs = w.objs.set h ⟨v', some 0⟩ := by
  have log_objs : (w.log (.called (.edit h e))).objs = w.objs := rfl
  have : w.perform env onCall (.edit h e) =
      some ({ w.log (.called (.edit h e)) with objs := release (w.objs.set h ⟨v', none⟩) h }.log
        (.returned (.edit h e) .done), .done) := by
    simp only [JsWorld.perform, JsWorld.step, log_objs, hg, hv, notifyAll]
  refine ⟨_, this, rfl, ?_⟩
  show release (w.objs.set h ⟨v', none⟩) h = _
  refine List.ext_getElem? fun i => ?_
  simp only [release, List.getElem?_modify, List.getElem?_set]
  by_cases hi : h = i
  · subst hi; simp [(List.getElem?_eq_some_iff.1 hg).1]
  · simp [hi]

theorem perform_edit_none (env : JsEnv) (onCall : JsWorld → JsFn → Bool → Option JsWorld) {w : JsWorld} {h : Nat} {e : Edit}
    {v v' : Obj} {f : JsFn} {b : Bool} {calls : List Call} (hg : w.objs[h]? = some ⟨v, some 0⟩)
    (hv : v.edit e = some (.ok (v', (f, b) :: calls)))
    (hn : ∀ w' : JsWorld, w'.engine = w.engine → onCall w' f b = none) : w.perform env onCall (.edit h e) = none := by
  have log_objs : (w.log (.called (.edit h e))).objs = w.objs := rfl
  simp only [JsWorld.perform, JsWorld.step, log_objs, hg, hv, notifyAll]
  have h1 := hn ({ w.log (.called (.edit h e)) with objs := w.objs.set h ⟨v', none⟩ }.log (.observed f b)) rfl
  simp only [h1]

/-- With new handlers they can: this observer exhausts any stack. -/
theorem C87_unbounded (env : JsEnv) (hf : ∀ es, env.fns 0 true es = spawn) (c : Classic) (depth : Nat) (w : JsWorld)
    (hw : w.engine.classic = ⟨.free, some c⟩) : runJs env depth w spawn = none := by
  have reach : ∀ d (w : JsWorld), w.engine.classic = ⟨.free, some c⟩ →
      (∀ w' : JsWorld, w'.engine.classic = ⟨.free, some c⟩ → observe env d w' 0 true = none) →
      runJs env d w spawn = none := by
    intro d w hw hd
    obtain ⟨w1, p1, e1, o1⟩ := perform_getCategories env (observe env d) hw
    have g1 : w1.objs[w.objs.length]? = some ⟨.cats (.new c), some 0⟩ := by rw [o1]; simp
    obtain ⟨w2, p2, e2, o2⟩ := perform_edit_quiet env (observe env d) (e := .addGeneral 0) g1 rfl
    have g2 : w2.objs[w.objs.length]? = some ⟨.cats ((CategoryHandler.new c).addGeneral 0), some 0⟩ := by
      rw [o2, List.getElem?_set]; simp [o1]
    have p3 := perform_edit_none env (observe env d) (e := .toggle (.option ⟨[], 0, 0⟩)) (f := 0) (b := true) (calls := []) g2 rfl
      fun w' hw' => hd w' (by rw [hw', e2, e1, hw])
    rw [runJs, spawn, runScript, p1]
    simp only
    rw [runScript, p2]
    simp only
    rw [runScript, p3]
  induction depth generalizing w with
  | zero => exact reach 0 w hw fun _ _ => rfl
  | succ depth ih => exact reach (depth + 1) w hw fun w' hw' => by rw [observe, hf]; exact ih w' hw'

/-! ## A concrete program

One tag, one category with an option. Observer 1 (of the tag handler) searches; observer 2 (of the category handler) toggles
the same option again, then a tag. -/

def smallClassic : Classic :=
  { tags := [⟨['t'], [], [], 0⟩], categories := [⟨['c'], [⟨['o'], 0, [], []⟩], true⟩], order := [] }

def smallWorld : JsWorld := .start { index := ⟨.free, none⟩, classic := ⟨.free, some smallClassic⟩ }

def smallEnv : JsEnv :=
  { t := .debug64, lower := fun c => [c], order := fun _ => .ident,
    fns := fun f _ _ =>
      if f = 1 then .call (.search [] 0 1 none []) fun _ => .finish
      else .call (.edit 0 (.toggle (.option ⟨['o'], 0, 0⟩))) fun _ =>
        .call (.edit 1 (.toggle (.tag ⟨smallClassic, 0⟩))) fun _ => .finish }

/-- Get both handlers, register an observer, toggle. -/
def program (f : JsFn) (h : Nat) (i : JsItem) (after : Script) : Script :=
  .call .getCategories fun _ => .call .getTags fun _ => .call (.edit h (.addGeneral f)) fun _ =>
    .call (.edit h (.toggle i)) fun _ => after

/-- The answers, in order. -/
def replies (es : List Event) : List Reply := es.filterMap fun
  | .returned _ r => some r
  | _ => none

/-- The search of the observer is refused, and so is every later toggle of the category handler. -/
example : (runJs smallEnv 1 smallWorld (program 1 1 (.tag ⟨smallClassic, 0⟩)
      (.call (.edit 0 (.toggle (.option ⟨['o'], 0, 0⟩))) fun _ => .finish))).map (fun w => replies w.trace) =
    some [.handler (some 0), .handler (some 1), .done, .refused, .done, .refused] := by rfl

/-- The observer cannot toggle its own handler but can toggle the other one; afterwards both are free and selected. -/
example : (runJs smallEnv 1 smallWorld (program 2 0 (.option ⟨['o'], 0, 0⟩)
      (.call (.status 0 (.option ⟨['o'], 0, 0⟩)) fun _ => .call (.status 1 (.tag ⟨smallClassic, 0⟩)) fun _ => .finish))).map
        (fun w => (replies w.trace, w.objs.map (·.flag))) =
    some ([.handler (some 0), .handler (some 1), .done, .refused, .done, .done, .status true, .status true], [some 0, some 0]) := by
  rfl

example := C87_get smallEnv (observe smallEnv 1) (w := smallWorld) (c := smallClassic) rfl

/-- `C87_notified`, `C87_status` apply: this state is reached, the handler is free. -/
example : ∃ w ch, Reach smallEnv w ∧ w.objs[0]? = some ⟨.cats ch, some 0⟩ ∧
    optionToggles 0 (0, 0) w.trace = 1 ∧ ch.getStatus ⟨['o'], 0, 0⟩ = true := by
  refine ⟨_, _, .ran (s := program 2 0 (.option ⟨['o'], 0, 0⟩) .finish) 1 (.start _) (show runJs smallEnv 1 smallWorld _ = _ from rfl),
    rfl, rfl, rfl⟩

/-- No room for a nested observer is not enough for it, one is (`C87_depth`: without new handlers, two always are). -/
example : runJs smallEnv 0 smallWorld (program 2 0 (.option ⟨['o'], 0, 0⟩) .finish) = none := by rfl

example : ∀ f b es, (smallEnv.fns f b es).Static := by
  intro f b es
  show Script.Static (if f = 1 then _ else _)
  split
  · exact ⟨nofun, nofun, fun _ => trivial⟩
  · exact ⟨nofun, nofun, fun _ => ⟨nofun, nofun, fun _ => trivial⟩⟩

/-- `C87_unbounded` has such environments. -/
example : ∃ env : JsEnv, (∀ es, env.fns 0 true es = spawn) ∧ ∀ depth, runJs env depth smallWorld spawn = none :=
  ⟨{ smallEnv with fns := fun _ _ _ => spawn }, fun _ => rfl, fun depth => C87_unbounded _ (fun _ => rfl) smallClassic depth _ rfl⟩

end Idx
