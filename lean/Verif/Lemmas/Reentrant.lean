import Verif.Model.Reentrant
/-! What any piece of JavaScript can do to the handlers. -/
namespace Idx

/-- The call borrows the object `h`. -/
def JsCall.Uses (h : Nat) : JsCall → Prop
  | .edit h' _ => h' = h
  | .status h' _ => h' = h
  | .search _ c t _ _ => c = h ∨ t = h
  | _ => False

/-- An accepted `&mut self` call on `h`. -/
def Event.editOn (h : Nat) : Event → Option Edit
  | .returned (.edit h' e) .done => if h' = h then some e else none
  | _ => none

/-- The accepted `&mut self` calls on `h`, in the order in which they returned. -/
def editsOn (h : Nat) (es : List Event) : List Edit := es.filterMap (Event.editOn h)

/-- One edit after the other, nobody else looking. -/
def Obj.after (v : Obj) : List Edit → Option Obj
  | [] => some v
  | e :: es =>
    match v.edit e with
    | some (.ok r) => r.1.after es
    | _ => none

/-- As returned by `get_categories`, `get_tags`. -/
def Obj.Fresh (v : Obj) : Prop := ∃ c, v = .cats (.new c) ∨ v = .tags (.new c)

/-- No search was refused and nothing trapped. -/
def Polite (es : List Event) : Prop :=
  ∀ c r, .returned c r ∈ es → r ≠ .trapped ∧ (r = .refused → ∀ a b d e f, c ≠ .search a b d e f)

/-- The observers called at nesting level 0 of some events. -/
def directCalls : Nat → List Event → List Call
  | _, [] => []
  | k, .called _ :: es => directCalls (k + 1) es
  | k, .returned _ _ :: es => directCalls (k - 1) es
  | 0, .observed f b :: es => (f, b) :: directCalls 0 es
  | k + 1, .observed _ _ :: es => directCalls (k + 1) es

theorem editsOn_append (h : Nat) (a b : List Event) : editsOn h (a ++ b) = editsOn h a ++ editsOn h b := List.filterMap_append

theorem Obj.after_append (v : Obj) (a b : List Edit) : v.after (a ++ b) = (v.after a).bind fun v => v.after b := by
  induction a generalizing v with
  | nil => rfl
  | cons e a ih =>
    simp only [List.cons_append, Obj.after]
    split
    · exact ih _
    · rfl

/-- What running from `w` to `w'` with the events `es` guarantees. -/
structure Rel (w w' : JsWorld) (es : List Event) : Prop where
  trace : w'.trace = w.trace ++ es
  busy : ∀ (h : Nat) g, w.objs[h]? = some g → g.flag = none → w'.objs[h]? = some g
  refused : ∀ (h : Nat) g, w.objs[h]? = some g → g.flag = none → ∀ c r, .returned c r ∈ es → c.Uses h → r = .refused
  value : ∀ (h : Nat) g g', w.objs[h]? = some g → w'.objs[h]? = some g' → g'.flag ≠ none →
    g.value.after (editsOn h es) = some g'.value
  fresh : ∀ (h : Nat) g', w.objs[h]? = none → w'.objs[h]? = some g' →
    ∃ v : Obj, v.Fresh ∧ (g'.flag ≠ none → v.after (editsOn h es) = some g'.value)
  absent : ∀ (h : Nat), w'.objs[h]? = none → w.objs[h]? = none ∧ editsOn h es = []
  counts : ∀ (h : Nat) g n, w.objs[h]? = some g → g.flag = some (n + 1) →
    ∃ g' m, w'.objs[h]? = some g' ∧ g'.flag = some m ∧ n + 1 ≤ m
  shared : ∀ (h : Nat) g n, w.objs[h]? = some g → g.flag = some (n + 1) → ∀ e r, .returned (.edit h e) r ∈ es → r = .refused
  clean : Polite es → ∀ (h : Nat) g', w'.objs[h]? = some g' → g'.flag = match w.objs[h]? with
    | some g => g.flag
    | none => some 0

/-- No observers are called at the level of the events itself. -/
def Quiet (es : List Event) : Prop := ∀ k rest, directCalls k (es ++ rest) = directCalls k rest

theorem Rel.refl (w : JsWorld) : Rel w w [] where
  trace := by simp
  busy := fun _ _ h _ => h
  refused := by simp
  value := by
    intro h g g' e e' _
    rw [e] at e'
    cases e'
    rfl
  fresh := by
    intro h g' e e'
    rw [e] at e'
    cases e'
  absent := fun h e => ⟨e, rfl⟩
  counts := fun h g n e e' => ⟨g, n + 1, e, e', Nat.le_refl _⟩
  shared := by simp
  clean := by
    intro _ h g' e
    rw [e]

theorem Polite.left {a b : List Event} (h : Polite (a ++ b)) : Polite a := fun c r hm => h c r (List.mem_append_left _ hm)
theorem Polite.right {a b : List Event} (h : Polite (a ++ b)) : Polite b := fun c r hm => h c r (List.mem_append_right _ hm)

theorem Rel.trans {w w' w'' : JsWorld} {a b : List Event} (h1 : Rel w w' a) (h2 : Rel w' w'' b) : Rel w w'' (a ++ b) where
  trace := by rw [h2.trace, h1.trace, List.append_assoc]
  busy := fun h g e e' => h2.busy h g (h1.busy h g e e') e'
  refused := by
    intro h g e e' c r hm hu
    rcases List.mem_append.1 hm with hm | hm
    · exact h1.refused h g e e' c r hm hu
    · exact h2.refused h g (h1.busy h g e e') e' c r hm hu
  value := by
    intro h g g'' e e'' hf
    cases e' : w'.objs[h]? with
    | none =>
      have := h1.absent h e'
      rw [e] at this
      cases this.1
    | some g' =>
      have hf' : g'.flag ≠ none := fun hn => by
        have := h2.busy h g' e' hn
        rw [e''] at this
        cases this
        exact hf hn
      rw [editsOn_append, Obj.after_append, h1.value h g g' e e' hf']
      exact h2.value h g' g'' e' e'' hf
  fresh := by
    intro h g'' e e''
    cases e' : w'.objs[h]? with
    | none =>
      obtain ⟨v, hv, ha⟩ := h2.fresh h g'' e' e''
      refine ⟨v, hv, fun hf => ?_⟩
      rw [editsOn_append, (h1.absent h e').2]
      exact ha hf
    | some g' =>
      obtain ⟨v, hv, ha⟩ := h1.fresh h g' e e'
      refine ⟨v, hv, fun hf => ?_⟩
      have hf' : g'.flag ≠ none := fun hn => by
        have := h2.busy h g' e' hn
        rw [e''] at this
        cases this
        exact hf hn
      rw [editsOn_append, Obj.after_append, ha hf']
      exact h2.value h g' g'' e' e'' hf
  absent := by
    intro h e
    obtain ⟨e', h2'⟩ := h2.absent h e
    obtain ⟨e'', h1'⟩ := h1.absent h e'
    exact ⟨e'', by rw [editsOn_append, h1', h2']; rfl⟩
  counts := by
    intro h g n e e'
    obtain ⟨g', m, e1, e2, hm⟩ := h1.counts h g n e e'
    obtain ⟨m, rfl⟩ : ∃ k, m = k + 1 := ⟨m - 1, by omega⟩
    obtain ⟨g'', m', e3, e4, hm'⟩ := h2.counts h g' m e1 e2
    exact ⟨g'', m', e3, e4, by omega⟩
  shared := by
    intro h g n e e' d r hm
    rcases List.mem_append.1 hm with hm | hm
    · exact h1.shared h g n e e' d r hm
    · obtain ⟨g', m, e1, e2, hle⟩ := h1.counts h g n e e'
      obtain ⟨m, rfl⟩ : ∃ k, m = k + 1 := ⟨m - 1, by omega⟩
      exact h2.shared h g' m e1 e2 d r hm
  clean := by
    intro hp h g'' e
    rw [h2.clean hp.right h g'' e]
    cases e' : w'.objs[h]? with
    | none => rw [(h1.absent h e').1]
    | some g' => exact h1.clean hp.left h g' e'

theorem directCalls_succ_pred (k : Nat) (c : JsCall) (r : Reply) (es : List Event) :
    directCalls (k + 1) (.returned c r :: es) = directCalls k es := rfl

/-- A call without observers that keeps all values and at most adds shared borrows. -/
theorem Rel.simple {w w' : JsWorld} {c : JsCall} {r : Reply}
    (ht : w'.trace = w.trace ++ [.called c])
    (hr : ∀ (h : Nat) g, w.objs[h]? = some g → g.flag = none → c.Uses h → r = .refused)
    (he : ∀ h, Event.editOn h (.returned c r) = none)
    (hsh : ∀ (h : Nat) g n e, c = .edit h e → w.objs[h]? = some g → g.flag = some (n + 1) → r = .refused)
    (hs : ∀ h : Nat, match w.objs[h]?, w'.objs[h]? with
      | none, none => True
      | some g, some g' => g'.value = g.value ∧ (g.flag = none → g'.flag = none) ∧
          (∀ n, g.flag = some (n + 1) → ∃ m, g'.flag = some m ∧ n + 1 ≤ m) ∧ (Polite [.returned c r] → g'.flag = g.flag)
      | _, _ => False) :
    Rel w (w'.log (.returned c r)) [.called c, .returned c r] := by
  have hed : ∀ h, editsOn h [.called c, .returned c r] = [] := by
    intro h
    have := he h
    simp only [editsOn, List.filterMap_cons, this, List.filterMap_nil]
    rfl
  have hobjs : (w'.log (.returned c r)).objs = w'.objs := rfl
  refine ⟨?_, ?_, ?_, ?_, ?_, ?_, ?_, ?_, ?_⟩
  · simp [JsWorld.log, ht]
  · intro h g e e'
    have := hs h
    rw [e] at this
    rw [hobjs]
    cases e2 : w'.objs[h]? with
    | none => simp [e2] at this
    | some g' =>
      simp only [e2] at this
      have h1 := this.1
      have h2 := this.2.1 e'
      cases g; cases g'
      simp_all
  · intro h g e e' c' r' hm hu
    simp only [List.mem_cons, List.not_mem_nil, or_false] at hm
    rcases hm with hm | hm
    · cases hm
    · cases hm
      exact hr h g e e' hu
  · intro h g g' e e' _
    rw [hed]
    have := hs h
    rw [hobjs] at e'
    simp only [e, e'] at this
    rw [this.1]
    rfl
  · intro h g' e e'
    have := hs h
    rw [hobjs] at e'
    simp [e, e'] at this
  · intro h e
    refine ⟨?_, hed h⟩
    have := hs h
    rw [hobjs] at e
    rw [e] at this
    cases e2 : w.objs[h]? with
    | none => rfl
    | some g => simp [e2] at this
  · intro h g n e e'
    have := hs h
    rw [hobjs]
    rw [e] at this
    cases e2 : w'.objs[h]? with
    | none => simp [e2] at this
    | some g' =>
      simp only [e2] at this
      obtain ⟨m, hm, hle⟩ := this.2.2.1 n e'
      exact ⟨g', m, rfl, hm, hle⟩
  · intro h g n e e' d r' hm
    simp only [List.mem_cons, List.not_mem_nil, or_false] at hm
    rcases hm with hm | hm
    · cases hm
    · cases hm
      exact hsh h g n d rfl e e'
  · intro hp h g' e
    have := hs h
    rw [hobjs] at e
    rw [e] at this
    cases e2 : w.objs[h]? with
    | none => simp [e2] at this
    | some g =>
      simp only [e2] at this
      exact this.2.2.2 (hp.right (a := [.called c]))

theorem Rel.same {w : JsWorld} (e : Engine) {c : JsCall} {r : Reply}
    (hr : ∀ (h : Nat) g, w.objs[h]? = some g → g.flag = none → c.Uses h → r = .refused)
    (he : ∀ h, Event.editOn h (.returned c r) = none)
    (hsh : ∀ h e, c = .edit h e → r = .refused := by intro _ _ h; cases h) :
    Rel w ({ w.log (.called c) with engine := e }.log (.returned c r)) [.called c, .returned c r] := by
  refine Rel.simple rfl hr he (fun h _ _ e hc _ _ => hsh h e hc) fun h => ?_
  show match w.objs[h]?, w.objs[h]? with
    | none, none => _
    | some g, some g' => _
    | _, _ => _
  cases w.objs[h]? with
  | none => trivial
  | some g => exact ⟨rfl, fun e => e, fun n e => ⟨n + 1, e, Nat.le_refl _⟩, fun _ => rfl⟩

/-- Objects that were added. -/
theorem Rel.added {w : JsWorld} {c : JsCall} {r : Reply} {v : Obj} (hv : v.Fresh)
    (hu : ∀ h, ¬ c.Uses h) (he : ∀ h, Event.editOn h (.returned c r) = none) :
    Rel w ({ w.log (.called c) with objs := w.objs ++ [Guarded.mk v (some 0)] }.log (.returned c r)) [.called c, .returned c r] := by
  have hed : ∀ h, editsOn h [.called c, .returned c r] = [] := by
    intro h
    have := he h
    simp only [editsOn, List.filterMap_cons, this, List.filterMap_nil]
    rfl
  have hobjs : ({ w.log (.called c) with objs := w.objs ++ [Guarded.mk v (some 0)] }.log (.returned c r)).objs = w.objs ++ [Guarded.mk v (some 0)] := rfl
  have hleft : ∀ {h : Nat} {g}, w.objs[h]? = some g → (w.objs ++ [Guarded.mk v (some 0)])[h]? = some g := by
    intro h g e
    rw [List.getElem?_append_left (List.getElem?_eq_some_iff.1 e).1]; exact e
  refine ⟨?_, ?_, ?_, ?_, ?_, ?_, ?_, ?_, ?_⟩
  · simp [JsWorld.log]
  · intro h g e _
    exact hleft e
  · intro h g e e' c' r' hm hu'
    simp only [List.mem_cons, List.not_mem_nil, or_false] at hm
    rcases hm with hm | hm
    · cases hm
    · cases hm
      exact absurd hu' (hu h)
  · intro h g g' e e' _
    rw [hobjs, hleft e] at e'
    cases e'
    rw [hed]; rfl
  · intro h g' e e'
    rw [hobjs, List.getElem?_append_right (List.getElem?_eq_none_iff.1 e)] at e'
    refine ⟨v, hv, fun _ => ?_⟩
    rw [hed]
    cases hk : h - w.objs.length with
    | zero => rw [hk] at e'; cases e'; rfl
    | succ k => rw [hk] at e'; simp at e'
  · intro h e
    refine ⟨?_, hed h⟩
    cases e2 : w.objs[h]? with
    | none => rfl
    | some g => rw [hobjs, hleft e2] at e; cases e
  · intro h g n e e'
    exact ⟨g, n + 1, hleft e, e', Nat.le_refl _⟩
  · intro h g n e e' d r' hm
    simp only [List.mem_cons, List.not_mem_nil, or_false] at hm
    rcases hm with hm | hm
    · cases hm
    · cases hm
      exact absurd rfl (hu h)
  · intro _ h g' e
    rw [hobjs] at e
    cases e2 : w.objs[h]? with
    | some g => rw [hleft e2] at e; cases e; rfl
    | none =>
      rw [List.getElem?_append_right (List.getElem?_eq_none_iff.1 e2)] at e
      cases hk : h - w.objs.length with
      | zero => rw [hk] at e; cases e; rfl
      | succ k => rw [hk] at e; simp at e

theorem Rel.observed (w : JsWorld) (f : JsFn) (b : Bool) : Rel w (w.log (.observed f b)) [.observed f b] where
  trace := rfl
  busy := fun _ _ h _ => h
  refused := by
    intro h g _ _ c r hm
    simp at hm
  value := by
    intro h g g' e e' _
    change w.objs[h]? = some g' at e'
    rw [e] at e'
    cases e'
    rfl
  fresh := by
    intro h g' e e'
    change w.objs[h]? = some g' at e'
    rw [e] at e'
    cases e'
  absent := fun h e => ⟨e, rfl⟩
  counts := fun h g n e e' => ⟨g, n + 1, e, e', Nat.le_refl _⟩
  shared := by simp
  clean := by
    intro _ h g' e
    change w.objs[h]? = some g' at e
    rw [e]

/-- Observers, one after the other. -/
theorem notifyAll_rel {onCall : JsWorld → JsFn → Bool → Option JsWorld}
    (hon : ∀ w f b w', onCall w f b = some w' → ∃ es, Rel w w' es ∧ Quiet es) (calls : List Call) : ∀ {w w' : JsWorld},
    notifyAll onCall w calls = some w' → ∃ es, Rel w w' es ∧
      (∀ rest, directCalls 0 (es ++ rest) = calls ++ directCalls 0 rest) ∧
      ∀ k rest, directCalls (k + 1) (es ++ rest) = directCalls (k + 1) rest := by
  induction calls with
  | nil =>
    intro w w' e
    cases e
    exact ⟨[], .refl w, fun _ => rfl, fun _ _ => rfl⟩
  | cons x calls ih =>
    obtain ⟨f, b⟩ := x
    intro w w' e
    rw [notifyAll] at e
    cases h1 : onCall (w.log (.observed f b)) f b with
    | none => rw [h1] at e; cases e
    | some w1 =>
      rw [h1] at e
      obtain ⟨es1, r1, q1⟩ := hon _ _ _ _ h1
      obtain ⟨es2, r2, d2, d3⟩ := ih e
      refine ⟨.observed f b :: (es1 ++ es2), ((Rel.observed w f b).trans r1).trans r2, fun rest => ?_, fun k rest => ?_⟩
      · show (f, b) :: directCalls 0 (es1 ++ es2 ++ rest) = _
        rw [List.append_assoc, q1, d2]; rfl
      · show directCalls (k + 1) (es1 ++ es2 ++ rest) = _
        rw [List.append_assoc, q1, d3]

/-- An accepted edit. -/
theorem Rel.edited {w w2 : JsWorld} {h : Nat} {v v' : Obj} {calls : List Call} {e : Edit} {es : List Event}
    (hw : w.objs[h]? = some ⟨v, some 0⟩) (hv : v.edit e = some (.ok (v', calls)))
    (hr : Rel { w.log (.called (.edit h e)) with objs := w.objs.set h ⟨v', none⟩ } w2 es) :
    Rel w ({ w2 with objs := release w2.objs h }.log (.returned (.edit h e) .done))
      (.called (.edit h e) :: (es ++ [.returned (.edit h e) .done])) := by
  have hlt := (List.getElem?_eq_some_iff.1 hw).1
  have hset : (w.objs.set h ⟨v', none⟩)[h]? = some ⟨v', none⟩ := by
    rw [List.getElem?_set]; simp [hlt]
  have hother : ∀ {x : Nat}, x ≠ h → (w.objs.set h ⟨v', none⟩)[x]? = w.objs[x]? := by
    intro x hx
    rw [List.getElem?_set]; simp [Ne.symm hx]
  have hthis : w2.objs[h]? = some ⟨v', none⟩ := hr.busy h _ hset rfl
  have hrel : ∀ {x : Nat}, x ≠ h → (release w2.objs h)[x]? = w2.objs[x]? := by
    intro x hx
    rw [release, List.getElem?_modify]; simp [Ne.symm hx]
  have hrelh : (release w2.objs h)[h]? = some ⟨v', some 0⟩ := by
    rw [release, List.getElem?_modify, hthis]; simp
  have hno : editsOn h es = [] := by
    rw [editsOn, List.filterMap_eq_nil_iff]
    intro ev hev
    match ev with
    | .returned (.edit h' e') .done =>
      by_cases hh : h' = h
      · have := hr.refused h _ hset rfl _ _ hev hh
        cases this
      · simp [Event.editOn, hh]
    | .called _ => rfl
    | .observed _ _ => rfl
    | .returned (.initialize _) _ => rfl
    | .returned .getCategories _ => rfl
    | .returned .getTags _ => rfl
    | .returned (.status _ _) _ => rfl
    | .returned (.search ..) _ => rfl
    | .returned (.edit _ _) .refused => rfl
    | .returned (.edit _ _) .trapped => rfl
    | .returned (.edit _ _) (.loaded _) => rfl
    | .returned (.edit _ _) (.handler _) => rfl
    | .returned (.edit _ _) (.status _) => rfl
    | .returned (.edit _ _) (.results _) => rfl
  have hed : ∀ {x : Nat}, x ≠ h → editsOn x (.called (.edit h e) :: (es ++ [.returned (.edit h e) .done])) = editsOn x es := by
    intro x hx
    show editsOn x (es ++ _) = _
    rw [editsOn_append]
    simp [editsOn, Event.editOn, Ne.symm hx]
  have hedh : editsOn h (.called (.edit h e) :: (es ++ [.returned (.edit h e) .done])) = [e] := by
    show editsOn h (es ++ _) = _
    rw [editsOn_append, hno]
    simp [editsOn, Event.editOn]
  refine ⟨?_, ?_, ?_, ?_, ?_, ?_, ?_, ?_, ?_⟩
  · simp only [JsWorld.log, hr.trace]
    simp
  · intro x g hx hg
    have hne : x ≠ h := by
      rintro rfl
      rw [hw] at hx
      cases hx
      cases hg
    show (release w2.objs h)[x]? = _
    rw [hrel hne]
    exact hr.busy x g (by rw [hother hne]; exact hx) hg
  · intro x g hx hg c r hm hu
    have hne : x ≠ h := by
      rintro rfl
      rw [hw] at hx
      cases hx
      cases hg
    simp only [List.mem_cons, List.mem_append, List.not_mem_nil, or_false] at hm
    rcases hm with hm | hm | hm
    · cases hm
    · exact hr.refused x g (by rw [hother hne]; exact hx) hg c r hm hu
    · cases hm
      exact absurd hu (Ne.symm hne)
  · intro x g g' hx hx' hf
    by_cases hne : x = h
    · subst hne
      rw [hw] at hx
      cases hx
      change (release w2.objs x)[x]? = some g' at hx'
      rw [hrelh] at hx'
      cases hx'
      rw [hedh, Obj.after, hv]
      rfl
    · change (release w2.objs h)[x]? = some g' at hx'
      rw [hrel hne] at hx'
      rw [hed hne]
      exact hr.value x g g' (by rw [hother hne]; exact hx) hx' hf
  · intro x g' hx hx'
    have hne : x ≠ h := by
      rintro rfl
      rw [hw] at hx
      cases hx
    change (release w2.objs h)[x]? = some g' at hx'
    rw [hrel hne] at hx'
    rw [hed hne]
    exact hr.fresh x g' (by rw [hother hne]; exact hx) hx'
  · intro x hx
    change (release w2.objs h)[x]? = none at hx
    have hne : x ≠ h := by
      rintro rfl
      rw [hrelh] at hx
      cases hx
    rw [hrel hne] at hx
    obtain ⟨h1, h2⟩ := hr.absent x hx
    rw [hother hne] at h1
    exact ⟨h1, by rw [hed hne]; exact h2⟩
  · intro x g n hx hg
    have hne : x ≠ h := by
      rintro rfl
      rw [hw] at hx
      cases hx
      cases hg
    obtain ⟨g', m, h1, h2⟩ := hr.counts x g n (by rw [hother hne]; exact hx) hg
    exact ⟨g', m, by show (release w2.objs h)[x]? = _; rw [hrel hne]; exact h1, h2⟩
  · intro x g n hx hg d r hm
    have hne : x ≠ h := by
      rintro rfl
      rw [hw] at hx
      cases hx
      cases hg
    simp only [List.mem_cons, List.mem_append, List.not_mem_nil, or_false] at hm
    rcases hm with hm | hm | hm
    · cases hm
    · exact hr.shared x g n (by rw [hother hne]; exact hx) hg d r hm
    · cases hm
      exact absurd rfl hne
  · intro hp x g' hx
    change (release w2.objs h)[x]? = some g' at hx
    by_cases hne : x = h
    · subst hne
      rw [hrelh] at hx
      cases hx
      rw [hw]
    · rw [hrel hne] at hx
      have := hr.clean (fun c r hm => hp c r (by simp [hm])) x g' hx
      rw [hother hne] at this
      exact this

theorem Quiet.append {a b : List Event} (ha : Quiet a) (hb : Quiet b) : Quiet (a ++ b) := by
  intro k rest
  rw [List.append_assoc, ha, hb]

theorem Quiet.call (c : JsCall) (r : Reply) : Quiet [.called c, .returned c r] := fun _ _ => rfl

theorem getCategories_fresh {e : Engine} {h : CategoryHandler} (hi : e.getCategories = .ok (some h)) : ∃ c, h = .new c := by
  unfold Engine.getCategories at hi
  cases h1 : e.classic.lockUnwrap with
  | error _ => rw [h1] at hi; cases hi
  | ok x =>
    rw [h1] at hi
    cases x with
    | none => cases hi
    | some c => cases hi; exact ⟨c, rfl⟩

theorem getTags_fresh {e : Engine} {h : TagHandler} (hi : e.getTags = .ok (some h)) : ∃ c, h = .new c := by
  unfold Engine.getTags at hi
  cases h1 : e.classic.lockUnwrap with
  | error _ => rw [h1] at hi; cases hi
  | ok x =>
    rw [h1] at hi
    cases x with
    | none => cases hi
    | some c => cases hi; exact ⟨c, rfl⟩

/-- What a call does. -/
theorem perform_rel {env : JsEnv} {onCall : JsWorld → JsFn → Bool → Option JsWorld}
    (hon : ∀ w f b w', onCall w f b = some w' → ∃ es, Rel w w' es ∧ Quiet es) {w w' : JsWorld} {c : JsCall} {r : Reply}
    (hp : w.perform env onCall c = some (w', r)) :
    ∃ mid, Rel w w' (.called c :: (mid ++ [.returned c r])) ∧ (∀ k rest, directCalls (k + 1) (mid ++ rest) = directCalls (k + 1) rest) ∧
      ∀ h e v v' calls, c = .edit h e → w.objs[h]? = some ⟨v, some 0⟩ → v.edit e = some (.ok (v', calls)) →
        r = .done ∧ directCalls 0 mid = calls := by
  rw [JsWorld.perform] at hp
  have simple : ∀ w'' : JsWorld, Rel w w'' [.called c, .returned c r] → (∀ h e v v' calls, c = .edit h e →
      w.objs[h]? = some ⟨v, some 0⟩ → v.edit e = some (.ok (v', calls)) → False) → w'' = w' →
      ∃ mid, Rel w w' (.called c :: (mid ++ [.returned c r])) ∧
        (∀ k rest, directCalls (k + 1) (mid ++ rest) = directCalls (k + 1) rest) ∧
        ∀ h e v v' calls, c = .edit h e → w.objs[h]? = some ⟨v, some 0⟩ → v.edit e = some (.ok (v', calls)) →
          r = .done ∧ directCalls 0 mid = calls := by
    intro w'' h1 h2 h3
    subst h3
    exact ⟨[], h1, fun _ _ => rfl, fun h e v v' calls a b c => absurd (h2 h e v v' calls a b c) id⟩
  have log_objs : (w.log (.called c)).objs = w.objs := rfl
  have log_engine : (w.log (.called c)).engine = w.engine := rfl
  match c, hp, simple, log_objs, log_engine with
  | .initialize file, hp, simple, log_objs, log_engine =>
    simp only [JsWorld.step] at hp
    cases hi : (w.log (.called (.initialize file))).engine.initialize env.t file with
    | mk e x =>
      rw [hi] at hp
      cases x with
      | ok b =>
        cases hp
        exact simple _ (Rel.same _ (fun _ _ _ _ hu => hu.elim) fun _ => rfl) (fun _ _ _ _ _ e => by cases e) rfl
      | error b =>
        cases hp
        exact simple _ (Rel.same _ (fun _ _ _ _ hu => hu.elim) fun _ => rfl) (fun _ _ _ _ _ e => by cases e) rfl
  | .getCategories, hp, simple, log_objs, log_engine =>
    simp only [JsWorld.step] at hp
    cases hi : (w.log (.called .getCategories)).engine.getCategories with
    | error _ =>
      rw [hi] at hp
      cases hp
      exact simple _ (Rel.same _ (fun _ _ _ _ hu => hu.elim) fun _ => rfl) (fun _ _ _ _ _ e => by cases e) rfl
    | ok x =>
      rw [hi] at hp
      cases x with
      | none =>
        cases hp
        exact simple _ (Rel.same _ (fun _ _ _ _ hu => hu.elim) fun _ => rfl) (fun _ _ _ _ _ e => by cases e) rfl
      | some ch =>
        cases hp
        obtain ⟨cl, hcl⟩ := getCategories_fresh hi
        subst hcl
        exact simple _ (Rel.added ⟨cl, .inl rfl⟩ (fun _ hu => hu) fun _ => rfl) (fun _ _ _ _ _ e => by cases e) rfl
  | .getTags, hp, simple, log_objs, log_engine =>
    simp only [JsWorld.step] at hp
    cases hi : (w.log (.called .getTags)).engine.getTags with
    | error _ =>
      rw [hi] at hp
      cases hp
      exact simple _ (Rel.same _ (fun _ _ _ _ hu => hu.elim) fun _ => rfl) (fun _ _ _ _ _ e => by cases e) rfl
    | ok x =>
      rw [hi] at hp
      cases x with
      | none =>
        cases hp
        exact simple _ (Rel.same _ (fun _ _ _ _ hu => hu.elim) fun _ => rfl) (fun _ _ _ _ _ e => by cases e) rfl
      | some ch =>
        cases hp
        obtain ⟨cl, hcl⟩ := getTags_fresh hi
        subst hcl
        exact simple _ (Rel.added ⟨cl, .inr rfl⟩ (fun _ hu => hu) fun _ => rfl) (fun _ _ _ _ _ e => by cases e) rfl
  | .edit h e, hp, simple, log_objs, log_engine =>
    simp only [JsWorld.step, log_objs] at hp
    match hg : w.objs[h]?, hp with
    | none, hp =>
      cases hp
      exact simple _ (Rel.same _ (fun _ _ _ _ _ => rfl) (fun _ => rfl) fun _ _ _ => rfl) (fun _ _ _ _ _ e h => by cases e; rw [hg] at h; cases h) rfl
    | some ⟨v, none⟩, hp =>
      cases hp
      exact simple _ (Rel.same _ (fun _ _ _ _ _ => rfl) (fun _ => rfl) fun _ _ _ => rfl) (fun _ _ _ _ _ e h => by cases e; rw [hg] at h; cases h) rfl
    | some ⟨v, some (n + 1)⟩, hp =>
      cases hp
      exact simple _ (Rel.same _ (fun _ _ _ _ _ => rfl) (fun _ => rfl) fun _ _ _ => rfl) (fun _ _ _ _ _ e h => by cases e; rw [hg] at h; cases h) rfl
    | some ⟨v, some 0⟩, hp =>
      simp only at hp
      cases hv : v.edit e with
      | none =>
        rw [hv] at hp
        cases hp
        refine simple _ (Rel.same _ (fun _ _ _ _ _ => rfl) (fun _ => rfl) fun _ _ _ => rfl) (fun _ _ _ _ _ e h h' => ?_) rfl
        cases e; rw [hg] at h; cases h; rw [hv] at h'; cases h'
      | some x =>
        cases x with
        | error _ =>
          rw [hv] at hp
          cases hp
          refine simple _ (Rel.simple (w' := { w.log (.called (.edit h e)) with objs := w.objs.set h ⟨v, none⟩ })
            rfl (fun h' g hg' hf hu => ?_) (fun _ => rfl)
            (fun h' g n e' hc hg' hf => by cases hc; rw [hg] at hg'; cases hg'; cases hf) fun h' => ?_) (fun _ _ _ _ _ e h h' => ?_) rfl
          · cases hu
            rw [hg] at hg'
            cases hg'
            cases hf
          · show match w.objs[h']?, (w.objs.set h ⟨v, none⟩)[h']? with
              | none, none => _
              | some g, some g' => _
              | _, _ => _
            by_cases hh : h' = h
            · subst hh
              have hlt := (List.getElem?_eq_some_iff.1 hg).1
              have : (w.objs.set h' ⟨v, none⟩)[h']? = some ⟨v, none⟩ := by
                rw [List.getElem?_set]; simp [hlt]
              rw [hg, this]
              refine ⟨rfl, fun _ => rfl, fun n hn => (by cases hn), fun hp => ?_⟩
              exact absurd rfl (hp _ _ (List.mem_cons_self ..)).1
            · have : (w.objs.set h ⟨v, none⟩)[h']? = w.objs[h']? := by
                rw [List.getElem?_set]; simp [Ne.symm hh]
              rw [this]
              cases w.objs[h']? with
              | none => trivial
              | some g => exact ⟨rfl, fun e => e, fun n e => ⟨n + 1, e, Nat.le_refl _⟩, fun _ => rfl⟩
          · cases e; rw [hg] at h; cases h; rw [hv] at h'; cases h'
        | ok x =>
          obtain ⟨v', calls⟩ := x
          rw [hv] at hp
          simp only at hp
          cases hn : notifyAll onCall { w.log (.called (.edit h e)) with objs := w.objs.set h ⟨v', none⟩ } calls with
          | none => rw [hn] at hp; cases hp
          | some w2 =>
            rw [hn] at hp
            cases hp
            obtain ⟨es, hr, d0, d1⟩ := notifyAll_rel hon calls hn
            refine ⟨es, Rel.edited hg hv hr, d1, fun h' e' v1 v1' calls' e1 e2 e3 => ⟨rfl, ?_⟩⟩
            cases e1
            rw [hg] at e2
            cases e2
            rw [hv] at e3
            cases e3
            have := d0 []
            rw [List.append_nil] at this
            rw [this]
            simp [directCalls]
  | .status h i, hp, simple, log_objs, log_engine =>
    simp only [JsWorld.step, log_objs] at hp
    match hg : w.objs[h]?, hp with
    | none, hp =>
      cases hp
      exact simple _ (Rel.same _ (fun _ _ _ _ _ => rfl) fun _ => rfl) (fun _ _ _ _ _ e => by cases e) rfl
    | some ⟨v, none⟩, hp =>
      cases hp
      exact simple _ (Rel.same _ (fun _ _ _ _ _ => rfl) fun _ => rfl) (fun _ _ _ _ _ e => by cases e) rfl
    | some ⟨v, some n⟩, hp =>
      simp only at hp
      cases hs : v.status i with
      | none =>
        rw [hs] at hp
        cases hp
        exact simple _ (Rel.same _ (fun _ _ _ _ _ => rfl) fun _ => rfl) (fun _ _ _ _ _ e => by cases e) rfl
      | some b =>
        rw [hs] at hp
        cases hp
        refine simple _ (Rel.same _ (fun h' g hg' hf hu => ?_) fun _ => rfl) (fun _ _ _ _ _ e => by cases e) rfl
        cases hu
        rw [hg] at hg'
        cases hg'
        cases hf
  | .search input cats tags order filter, hp, simple, log_objs, log_engine =>
    simp only [JsWorld.step, log_objs] at hp
    have refuse : ∀ {w''}, some (((w.log (.called (.search input cats tags order filter))).log
        (.returned (.search input cats tags order filter) .refused)), Reply.refused) = some (w'', r) → w'' = w' →
        ∃ mid, Rel w w' (.called (.search input cats tags order filter) ::
            (mid ++ [.returned (.search input cats tags order filter) r])) ∧
          (∀ k rest, directCalls (k + 1) (mid ++ rest) = directCalls (k + 1) rest) ∧
          ∀ h e v v' calls, JsCall.search input cats tags order filter = .edit h e → w.objs[h]? = some ⟨v, some 0⟩ →
            v.edit e = some (.ok (v', calls)) → r = .done ∧ directCalls 0 mid = calls := by
      intro w'' h1 h2
      cases h1
      subst h2
      exact simple _ (Rel.same _ (fun _ _ _ _ _ => rfl) fun _ => rfl) (fun _ _ _ _ _ e => by cases e) rfl
    match hg : w.objs[cats]?, hp with
    | none, hp => exact refuse hp rfl
    | some ⟨.tags _, _⟩, hp => exact refuse hp rfl
    | some ⟨.cats _, none⟩, hp => exact refuse hp rfl
    | some ⟨.cats ch, some n⟩, hp =>
      simp only at hp
      have hlt := (List.getElem?_eq_some_iff.1 hg).1
      have hset : (w.objs.set cats ⟨.cats ch, some (n + 1)⟩)[cats]? = some ⟨.cats ch, some (n + 1)⟩ := by
        rw [List.getElem?_set]; simp [hlt]
      match hg2 : w.objs[tags]?, hp with
      | none, hp => exact refuse hp rfl
      | some ⟨.cats _, _⟩, hp => exact refuse hp rfl
      | some ⟨.tags th, none⟩, hp =>
        cases hp
        refine simple _ (Rel.simple (w' := { w.log (.called (.search input cats tags order filter)) with
          objs := w.objs.set cats ⟨.cats ch, some (n + 1)⟩ }) rfl (fun _ _ _ _ _ => rfl) (fun _ => rfl)
          (fun _ _ _ _ h => by cases h) fun h' => ?_)
          (fun _ _ _ _ _ e => by cases e) rfl
        show match w.objs[h']?, (w.objs.set cats ⟨.cats ch, some (n + 1)⟩)[h']? with
          | none, none => _
          | some g, some g' => _
          | _, _ => _
        by_cases hh : h' = cats
        · subst hh
          rw [hg, hset]
          refine ⟨rfl, fun h => (by cases h), fun m hm => ?_, fun hp => ?_⟩
          · cases hm
            exact ⟨m + 1 + 1, rfl, by omega⟩
          · exact absurd rfl ((hp _ _ (List.mem_cons_self ..)).2 rfl _ _ _ _ _)
        · have : (w.objs.set cats ⟨.cats ch, some (n + 1)⟩)[h']? = w.objs[h']? := by
            rw [List.getElem?_set]; simp [Ne.symm hh]
          rw [this]
          cases w.objs[h']? with
          | none => trivial
          | some g => exact ⟨rfl, fun e => e, fun n e => ⟨n + 1, e, Nat.le_refl _⟩, fun _ => rfl⟩
      | some ⟨.tags th, some m⟩, hp =>
        simp only at hp
        have uses : ∀ (h' : Nat) g, w.objs[h']? = some g → g.flag = none →
            (JsCall.search input cats tags order filter).Uses h' → r = .refused := by
          intro h' g hg' hf hu
          rcases hu with hu | hu
          · subst hu; rw [hg] at hg'; cases hg'; cases hf
          · subst hu; rw [hg2] at hg'; cases hg'; cases hf
        cases hs : (w.log (.called (.search input cats tags order filter))).engine.search .trap
            (env.order (w.log (.called (.search input cats tags order filter))).trace) env.lower input ch th order filter with
        | mk e x =>
          rw [hs] at hp
          cases x with
          | ok q =>
            cases hp
            exact simple _ (Rel.same _ uses fun _ => rfl) (fun _ _ _ _ _ e => by cases e) rfl
          | error _ =>
            cases hp
            refine simple _ (Rel.simple (w' := { w.log (.called (.search input cats tags order filter)) with
              engine := e, objs := (w.objs.set cats ⟨.cats ch, some (n + 1)⟩).set tags ⟨.tags th, some (m + 1)⟩ }) rfl uses
              (fun _ => rfl) (fun _ _ _ _ h => by cases h) fun h' => ?_) (fun _ _ _ _ _ e => by cases e) rfl
            show match w.objs[h']?, ((w.objs.set cats ⟨.cats ch, some (n + 1)⟩).set tags ⟨.tags th, some (m + 1)⟩)[h']? with
              | none, none => _
              | some g, some g' => _
              | _, _ => _
            have hne : cats ≠ tags := by
              rintro rfl
              rw [hg] at hg2
              cases hg2
            have hlt2 := (List.getElem?_eq_some_iff.1 hg2).1
            by_cases hh : h' = tags
            · subst hh
              have : ((w.objs.set cats ⟨.cats ch, some (n + 1)⟩).set h' ⟨.tags th, some (m + 1)⟩)[h']? =
                  some ⟨.tags th, some (m + 1)⟩ := by
                rw [List.getElem?_set]; simp [hlt2]
              rw [hg2, this]
              refine ⟨rfl, fun h => (by cases h), fun m' hm => ?_, fun hp => ?_⟩
              · cases hm
                exact ⟨m' + 1 + 1, rfl, by omega⟩
              · exact absurd rfl (hp _ _ (List.mem_cons_self ..)).1
            · have h1 : ((w.objs.set cats ⟨.cats ch, some (n + 1)⟩).set tags ⟨.tags th, some (m + 1)⟩)[h']? =
                  (w.objs.set cats ⟨.cats ch, some (n + 1)⟩)[h']? := by
                rw [List.getElem?_set]; simp [Ne.symm hh]
              rw [h1]
              by_cases hh : h' = cats
              · subst hh
                rw [hg, hset]
                refine ⟨rfl, fun h => (by cases h), fun m hm => ?_, fun hp => ?_⟩
                · cases hm
                  exact ⟨m + 1 + 1, rfl, by omega⟩
                · exact absurd rfl (hp _ _ (List.mem_cons_self ..)).1
              · have : (w.objs.set cats ⟨.cats ch, some (n + 1)⟩)[h']? = w.objs[h']? := by
                  rw [List.getElem?_set]; simp [Ne.symm hh]
                rw [this]
                cases w.objs[h']? with
                | none => trivial
                | some g => exact ⟨rfl, fun e => e, fun n e => ⟨n + 1, e, Nat.le_refl _⟩, fun _ => rfl⟩

/-- Any piece of JavaScript. -/
theorem runScript_rel {env : JsEnv} {onCall : JsWorld → JsFn → Bool → Option JsWorld}
    (hon : ∀ w f b w', onCall w f b = some w' → ∃ es, Rel w w' es ∧ Quiet es) (s : Script) : ∀ {w w' : JsWorld},
    runScript env onCall w s = some w' → ∃ es, Rel w w' es ∧ Quiet es := by
  induction s with
  | finish =>
    intro w w' e
    cases e
    exact ⟨[], .refl w, fun _ _ => rfl⟩
  | call c next ih =>
    intro w w' e
    rw [runScript] at e
    cases h1 : w.perform env onCall c with
    | none => rw [h1] at e; cases e
    | some x =>
      obtain ⟨w1, r⟩ := x
      rw [h1] at e
      obtain ⟨mid, r1, d1, _⟩ := perform_rel hon h1
      obtain ⟨es, r2, q⟩ := ih r e
      refine ⟨_, r1.trans r2, Quiet.append (fun k rest => ?_) q⟩
      show directCalls (k + 1) (mid ++ [.returned c r] ++ rest) = _
      rw [List.append_assoc, d1]; rfl

theorem observe_rel (env : JsEnv) (depth : Nat) : ∀ (w : JsWorld) (f : JsFn) (b : Bool) (w' : JsWorld),
    observe env depth w f b = some w' → ∃ es, Rel w w' es ∧ Quiet es := by
  induction depth with
  | zero => intro w f b w' e; cases e
  | succ depth ih =>
    intro w f b w' e
    exact runScript_rel ih _ e

theorem runJs_rel {env : JsEnv} {depth : Nat} {w w' : JsWorld} {s : Script} (h : runJs env depth w s = some w') :
    ∃ es, Rel w w' es ∧ Quiet es := runScript_rel (observe_rel env depth) s h

end Idx
