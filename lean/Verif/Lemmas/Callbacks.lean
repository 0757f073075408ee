import Verif.Model.Callbacks
import Verif.Lemmas.Reentrant
/-! What any piece of JavaScript can do to a handler, wherever in the crate it is run. -/
namespace Idx

/-- The call names the object `h`. -/
def CbCall.Uses (h : Nat) : CbCall → Prop
  | .edit h' _ | .editFreed h' | .status h' _ | .statusFreed h' | .free h' => h' = h
  | .search _ c t _ _ => c = h ∨ t = h
  | _ => False

/-- The call needs the object `h` for itself. -/
def CbCall.Wants (h : Nat) : CbCall → Prop
  | .edit h' _ | .editFreed h' | .free h' => h' = h
  | _ => False

theorem CbCall.Wants.uses {h : Nat} {c : CbCall} (hw : c.Wants h) : c.Uses h := by
  cases c <;> first | exact hw | cases hw

/-- An accepted `&mut self` call on `h`. -/
def CbEvent.editOn (h : Nat) : CbEvent → Option Edit
  | .returned (.edit h' e) .done => if h' = h then some e else none
  | _ => none

/-- The accepted `&mut self` calls on `h`, in the order in which they returned. -/
def acceptedOn (h : Nat) (es : List CbEvent) : List Edit := es.filterMap (CbEvent.editOn h)

/-- Nothing trapped, no exception passed through the crate, and only calls were refused that name one object and nothing freed. -/
def Civil (es : List CbEvent) : Prop :=
  ∀ c r, .returned c r ∈ es → r ≠ .trapped ∧ r ≠ .threw ∧ (r = .refused → (∃ h e, c = .edit h e) ∨ (∃ h i, c = .status h i) ∨ ∃ h, c = .free h)

theorem acceptedOn_append (h : Nat) (a b : List CbEvent) : acceptedOn h (a ++ b) = acceptedOn h a ++ acceptedOn h b :=
  List.filterMap_append

theorem Civil.left {a b : List CbEvent} (h : Civil (a ++ b)) : Civil a := fun c r hm => h c r (List.mem_append_left _ hm)
theorem Civil.right {a b : List CbEvent} (h : Civil (a ++ b)) : Civil b := fun c r hm => h c r (List.mem_append_right _ hm)

/-- Memory is given back only of objects that nobody has borrowed or can name. -/
def Handle.Sound (g : Handle) : Prop := g.dropped = true → g.forgotten = true ∧ g.flag = some 0

/-- What can become of the object `h` while the events `es` happen. -/
structure Moves (h : Nat) (es : List CbEvent) (g g' : Handle) : Prop where
  forgotten : g.forgotten = true → g'.forgotten = true
  still : g.flag ≠ some 0 ∨ g.forgotten = true → acceptedOn h es = []
  kept : g.flag ≠ some 0 → g'.value = g.value ∧ g'.dropped = g.dropped
  busy : g.flag = none → g'.flag = none
  shared : ∀ n, g.flag = some (n + 1) → ∃ m, g'.flag = some m ∧ n + 1 ≤ m
  value : g'.flag ≠ none → g.value.after (acceptedOn h es) = some g'.value
  sound : g.Sound → g'.Sound
  refused : g.flag = none ∨ g.forgotten = true → ∀ c r, .returned c r ∈ es → c.Uses h → r = .refused
  sharedRefused : ∀ n, g.flag = some (n + 1) → ∀ c r, .returned c r ∈ es → c.Wants h → r = .refused
  clean : Civil es → g'.flag = g.flag

theorem Moves.refl (h : Nat) (g : Handle) : Moves h [] g g where
  forgotten := id
  still := fun _ => rfl
  kept := fun _ => ⟨rfl, rfl⟩
  busy := id
  shared := fun n e => ⟨n + 1, e, Nat.le_refl _⟩
  value := fun _ => rfl
  sound := id
  refused := by simp
  sharedRefused := by simp
  clean := fun _ => rfl

theorem Moves.trans {h : Nat} {a b : List CbEvent} {g g' g'' : Handle} (h1 : Moves h a g g') (h2 : Moves h b g' g'') :
    Moves h (a ++ b) g g'' := by
  have hz : g.flag ≠ some 0 → g'.flag ≠ some 0 := by
    intro hn
    cases e : g.flag with
    | none => rw [h1.busy e]; simp
    | some n =>
      cases n with
      | zero => exact absurd e hn
      | succ n =>
        obtain ⟨m, hm, hle⟩ := h1.shared n e
        rw [hm]
        simp only [ne_eq, Option.some.injEq]
        omega
  refine ⟨fun e => h2.forgotten (h1.forgotten e), ?_, ?_, fun e => h2.busy (h1.busy e), ?_, ?_, fun e => h2.sound (h1.sound e), ?_, ?_, ?_⟩
  · intro e
    rw [acceptedOn_append, h1.still e, h2.still (e.imp hz h1.forgotten)]
    rfl
  · intro e
    obtain ⟨a1, a2⟩ := h1.kept e
    obtain ⟨b1, b2⟩ := h2.kept (hz e)
    exact ⟨b1.trans a1, b2.trans a2⟩
  · intro n e
    obtain ⟨m, hm, hle⟩ := h1.shared n e
    obtain ⟨m, rfl⟩ : ∃ k, m = k + 1 := ⟨m - 1, by omega⟩
    obtain ⟨k, hk, hle'⟩ := h2.shared m hm
    exact ⟨k, hk, by omega⟩
  · intro e
    have e' : g'.flag ≠ none := fun hn => e (h2.busy hn)
    rw [acceptedOn_append]
    have := h1.value e'
    have aux : ∀ (v : Obj) (x y : List Edit) (v' : Obj), v.after x = some v' → v.after (x ++ y) = v'.after y := by
      intro v x y v' hx
      rw [Obj.after_append, hx]
      rfl
    rw [aux _ _ _ _ this]
    exact h2.value e
  · intro e c r hm hu
    rcases List.mem_append.1 hm with hm | hm
    · exact h1.refused e c r hm hu
    · exact h2.refused (e.imp h1.busy h1.forgotten) c r hm hu
  · intro n e c r hm hu
    rcases List.mem_append.1 hm with hm | hm
    · exact h1.sharedRefused n e c r hm hu
    · obtain ⟨m, hm', hle⟩ := h1.shared n e
      obtain ⟨m, rfl⟩ : ∃ k, m = k + 1 := ⟨m - 1, by omega⟩
      exact h2.sharedRefused m hm' c r hm hu
  · intro hc
    rw [h2.clean hc.right, h1.clean hc.left]

/-- Events that are not about the object. -/
theorem Moves.silent {h : Nat} {es : List CbEvent} (g : Handle) (hs : ∀ c r, .returned c r ∈ es → ¬c.Uses h) :
    Moves h es g g := by
  have ha : acceptedOn h es = [] := by
    refine List.filterMap_eq_nil_iff.2 fun e he => ?_
    unfold CbEvent.editOn
    split
    · rename_i h' e'
      split
      · rename_i hh
        exact absurd hh (hs _ _ he)
      · rfl
    · rfl
  exact ⟨id, fun _ => ha, fun _ => ⟨rfl, rfl⟩, id, fun n e => ⟨n + 1, e, Nat.le_refl _⟩, fun _ => by rw [ha]; rfl, id,
    fun _ c r hm hu => absurd hu (hs c r hm), fun _ _ c r hm hu => absurd hu.uses (hs c r hm), fun _ => rfl⟩

/-- The events around a call. -/
theorem Moves.around {h : Nat} {es : List CbEvent} {g g' : Handle} {c : CbCall} {r : CbReply} (hu : ¬c.Uses h) (hm : Moves h es g g') :
    Moves h (.called c :: (es ++ [.returned c r])) g g' := by
  have h1 : Moves h [.called c] g g := Moves.silent g (by simp)
  have h2 : Moves h [.returned c r] g' g' := Moves.silent g' (by simpa using hu)
  exact h1.trans (hm.trans h2)

/-- What running from `w` to `w'` with the events `es` guarantees. -/
structure CbRel (w w' : CbWorld) (es : List CbEvent) : Prop where
  trace : w'.trace = w.trace ++ es
  moves : ∀ (h : Nat) g, w.objs[h]? = some g → ∃ g', w'.objs[h]? = some g' ∧ Moves h es g g'
  fresh : ∀ (h : Nat) g', w.objs[h]? = none → w'.objs[h]? = some g' → ∃ v : Obj, v.Fresh ∧ Moves h es ⟨v, some 0, false, false⟩ g'
  absent : ∀ h : Nat, w'.objs[h]? = none → acceptedOn h es = []

theorem CbRel.refl (w : CbWorld) : CbRel w w [] where
  trace := by simp
  moves := fun h g e => ⟨g, e, .refl h g⟩
  fresh := fun h g' e e' => by rw [e] at e'; cases e'
  absent := fun _ _ => rfl

theorem CbRel.trans {w w' w'' : CbWorld} {a b : List CbEvent} (h1 : CbRel w w' a) (h2 : CbRel w' w'' b) :
    CbRel w w'' (a ++ b) where
  trace := by rw [h2.trace, h1.trace, List.append_assoc]
  moves := by
    intro h g e
    obtain ⟨g', e', m1⟩ := h1.moves h g e
    obtain ⟨g'', e'', m2⟩ := h2.moves h g' e'
    exact ⟨g'', e'', m1.trans m2⟩
  fresh := by
    intro h g'' e e''
    cases e' : w'.objs[h]? with
    | none =>
      obtain ⟨v, hv, m⟩ := h2.fresh h g'' e' e''
      have ha := h1.absent h e'
      refine ⟨v, hv, ⟨m.forgotten, by simp, by simp, by simp, by simp, ?_, m.sound, by simp, by simp, fun hc => m.clean hc.right⟩⟩
      rw [acceptedOn_append, ha]
      exact m.value
    | some g' =>
      obtain ⟨v, hv, m⟩ := h1.fresh h g' e e'
      obtain ⟨g3, e3, m2⟩ := h2.moves h g' e'
      rw [e''] at e3
      cases e3
      exact ⟨v, hv, m.trans m2⟩
  absent := by
    intro h e
    have e' : w'.objs[h]? = none := by
      cases e' : w'.objs[h]? with
      | none => rfl
      | some g =>
        obtain ⟨g', e2, _⟩ := h2.moves h g e'
        rw [e] at e2
        cases e2
    rw [acceptedOn_append, h1.absent h e', h2.absent h e]
    rfl

/-- Events only. -/
theorem CbRel.logged (w : CbWorld) (e : CbEvent) (he : ∀ c r, e ≠ .returned c r) : CbRel w (w.log e) [e] where
  trace := rfl
  moves := fun h g hg => ⟨g, hg, Moves.silent g fun c r hm => by
    simp only [List.mem_singleton] at hm
    exact absurd hm.symm (he c r)⟩
  fresh := fun h g' e1 e2 => by
    change w.objs[h]? = _ at e2
    rw [e1] at e2
    cases e2
  absent := fun h _ => by
    show List.filterMap _ [e] = []
    rw [List.filterMap_cons]
    cases e with
    | returned c r => exact absurd rfl (he c r)
    | _ => rfl

/-- What is asked of the way JavaScript code is run. -/
def Runner.Fine (run : Runner) : Prop := ∀ w j w' out, run w j = .ok (w', out) → ∃ es, CbRel w w' es

theorem notifyJobs_rel {run : Runner} (hr : run.Fine) : ∀ (calls : List Call) {w w' : CbWorld}, notifyJobs run w calls = .ok w' →
    ∃ es, CbRel w w' es
  | [], w, w', h => by
    cases h
    exact ⟨[], .refl w⟩
  | (f, b) :: rest, w, w', h => by
    unfold notifyJobs at h
    cases e : run w (.observer f b) with
    | error s => rw [e] at h; cases h
    | ok r =>
      obtain ⟨w1, out⟩ := r
      rw [e] at h
      obtain ⟨es1, r1⟩ := hr _ _ _ _ e
      obtain ⟨es2, r2⟩ := notifyJobs_rel hr rest (w := w1) h
      exact ⟨_, r1.trans r2⟩

theorem getValue_rel {run : Runner} (hr : run.Fine) {w w' : CbWorld} {o : JsRef} {key : Str} {v : Option JsValue}
    (h : getValue run w o key = .ok (w', v)) : ∃ es, CbRel w w' es := by
  unfold getValue at h
  cases e : run w (.get o key) with
  | error s => rw [e] at h; cases h
  | ok r =>
    obtain ⟨w1, out⟩ := r
    rw [e] at h
    obtain ⟨es1, r1⟩ := hr _ _ _ _ e
    simp only [bind, Except.bind] at h
    split at h <;> cases h <;> exact ⟨_, r1⟩

theorem readExact_rel {run : Runner} (hr : run.Fine) {w w' : CbWorld} {feature : Str} {o : JsRef} {f : Option FeatureFilter}
    (h : readExact run w feature o = .ok (w', f)) : ∃ es, CbRel w w' es := by
  unfold readExact at h
  split at h
  · cases h
  · rename_i e
    cases h
    exact getValue_rel hr e

theorem readValue_rel {run : Runner} (hr : run.Fine) {w w' : CbWorld} {feature : Str} {o : JsRef} {f : Option FeatureFilter}
    (h : readValue run w feature o = .ok (w', f)) : ∃ es, CbRel w w' es := by
  unfold readValue at h
  split at h
  · cases h
  · rename_i e
    obtain ⟨_, r1⟩ := getValue_rel hr e
    obtain ⟨_, r2⟩ := readExact_rel hr h
    exact ⟨_, r1.trans r2⟩
  · rename_i e
    obtain ⟨_, r1⟩ := getValue_rel hr e
    split at h
    · cases h
    · rename_i e2
      obtain ⟨_, r2⟩ := getValue_rel hr e2
      cases h
      exact ⟨_, r1.trans r2⟩
    · rename_i e2
      obtain ⟨_, r2⟩ := getValue_rel hr e2
      obtain ⟨_, r3⟩ := readExact_rel hr h
      exact ⟨_, r1.trans (r2.trans r3)⟩

theorem readFeatures_rel {run : Runner} (hr : run.Fine) : ∀ (l : List (Str × JsRef)) {w w' : CbWorld} {fs : Option (List FeatureFilter)},
    readFeatures run w l = .ok (w', fs) → ∃ es, CbRel w w' es
  | [], w, w', fs, h => by
    cases h
    exact ⟨[], .refl w⟩
  | (feature, values) :: rest, w, w', fs, h => by
    unfold readFeatures at h
    split at h
    · cases h
    · rename_i e
      cases h
      exact readValue_rel hr e
    · rename_i e
      obtain ⟨_, r1⟩ := readValue_rel hr e
      split at h
      · cases h
      · rename_i e2
        obtain ⟨_, r2⟩ := readFeatures_rel hr rest e2
        cases h
        exact ⟨_, r1.trans r2⟩

theorem readFilter_rel {run : Runner} (hr : run.Fine) {w w' : CbWorld} {o : JsRef} {fs : Option (Option (List FeatureFilter))}
    (h : readFilter run w o = .ok (w', fs)) : ∃ es, CbRel w w' es := by
  unfold readFilter at h
  cases e : run w (.entries o) with
  | error s => rw [e] at h; cases h
  | ok r =>
    obtain ⟨w1, out⟩ := r
    rw [e] at h
    obtain ⟨es1, r1⟩ := hr _ _ _ _ e
    simp only [bind, Except.bind] at h
    split at h
    · split at h
      · cases h
      rename_i x e2
      obtain ⟨w2, fs'⟩ := x
      cases h
      obtain ⟨es2, r2⟩ := readFeatures_rel hr _ e2
      exact ⟨_, r1.trans r2⟩
    · cases h
      exact ⟨_, r1⟩

/-! ## One call -/

theorem editOn_refused (h : Nat) (c : CbCall) : CbEvent.editOn h (.returned c .refused) = none := by
  unfold CbEvent.editOn
  split
  · rename_i heq
    cases heq
  · rfl

theorem editOn_unused {h : Nat} {c : CbCall} {r : CbReply} (hu : ¬c.Uses h) : CbEvent.editOn h (.returned c r) = none := by
  unfold CbEvent.editOn
  split
  · rename_i heq
    cases heq
    split
    · rename_i hh
      exact absurd hh hu
    · rfl
  · rfl

theorem acceptedOn_call {h : Nat} {es : List CbEvent} {c : CbCall} {r : CbReply} :
    acceptedOn h (.called c :: (es ++ [.returned c r])) = acceptedOn h es ++ (CbEvent.editOn h (.returned c r)).toList := by
  show acceptedOn h ([.called c] ++ (es ++ [.returned c r])) = _
  rw [acceptedOn_append, acceptedOn_append]
  show [] ++ (acceptedOn h es ++ List.filterMap _ [_]) = _
  rw [List.nil_append, List.filterMap_cons]
  cases CbEvent.editOn h (.returned c r) <;> rfl

/-- A call on the object itself during which the events `es` happen elsewhere. -/
theorem Moves.call {h : Nat} {es : List CbEvent} {g g' : Handle} {c : CbCall} {r : CbReply}
    (hfree : g.forgotten = false) (hsound : g.Sound → g'.Sound)
    (hkept : g.flag ≠ some 0 → g'.value = g.value ∧ g'.dropped = g.dropped ∧ acceptedOn h es = [] ∧ CbEvent.editOn h (.returned c r) = none)
    (hbusy : g.flag ≠ none) (hshared : ∀ n, g.flag = some (n + 1) → ∃ m, g'.flag = some m ∧ n + 1 ≤ m)
    (hvalue : g'.flag ≠ none → g.value.after (acceptedOn h es ++ (CbEvent.editOn h (.returned c r)).toList) = some g'.value)
    (hin : ∀ n, g.flag = some (n + 1) → ∀ c r, .returned c r ∈ es → c.Wants h → r = .refused)
    (hout : ∀ n, g.flag = some (n + 1) → c.Wants h → r = .refused)
    (hclean : Civil (.called c :: (es ++ [.returned c r])) → g'.flag = g.flag) :
    Moves h (.called c :: (es ++ [.returned c r])) g g' := by
  refine ⟨by simp [hfree], ?_, fun e => ⟨(hkept e).1, (hkept e).2.1⟩, fun e => absurd e hbusy, hshared, ?_, hsound, ?_, ?_, hclean⟩
  · intro e
    obtain ⟨_, _, h1, h2⟩ := hkept (e.resolve_right (by simp [hfree]))
    rw [acceptedOn_call, h1, h2]
    rfl
  · rw [acceptedOn_call]
    exact hvalue
  · intro e
    rcases e with e | e
    · exact absurd e hbusy
    · rw [hfree] at e
      cases e
  · intro n e c' r' hm hw
    simp only [List.mem_cons, List.mem_append, List.not_mem_nil, or_false] at hm
    rcases hm with hm | hm | hm
    · cases hm
    · exact hin n e c' r' hm hw
    · cases hm
      exact hout n e hw

/-- A refused call on an object. -/
theorem Moves.refusedCall (h : Nat) (c : CbCall) (g : Handle) : Moves h [.called c, .returned c .refused] g g := by
  have ha : acceptedOn h [.called c, .returned c .refused] = [] := by
    have := acceptedOn_call (h := h) (es := []) (c := c) (r := .refused)
    rw [editOn_refused] at this
    exact this
  refine ⟨id, fun _ => ha, fun _ => ⟨rfl, rfl⟩, id, fun n e => ⟨n + 1, e, Nat.le_refl _⟩, fun _ => by rw [ha]; rfl, id, ?_, ?_, fun _ => rfl⟩
  · intro _ c' r' hm _
    simp only [List.mem_cons, List.not_mem_nil, or_false] at hm
    rcases hm with hm | hm <;> cases hm
    rfl
  · intro _ _ c' r' hm _
    simp only [List.mem_cons, List.not_mem_nil, or_false] at hm
    rcases hm with hm | hm <;> cases hm
    rfl

theorem CbRel.same {w : CbWorld} (e : Engine) {c : CbCall} {r : CbReply} (hr : ∀ h, c.Uses h → r = .refused) :
    CbRel w ({ w.log (.called c) with engine := e }.log (.returned c r)) [.called c, .returned c r] := by
  have hm : ∀ h g, Moves h [.called c, .returned c r] g g := by
    intro h g
    by_cases hu : c.Uses h
    · rw [hr h hu]
      exact .refusedCall h c g
    · exact (Moves.refl h g).around hu
  refine ⟨by simp [CbWorld.log], fun h g e => ⟨g, e, hm h g⟩, fun h g' e1 e2 => ?_, fun h _ => ?_⟩
  · change w.objs[h]? = _ at e2
    rw [e1] at e2
    cases e2
  · rw [show [CbEvent.called c, .returned c r] = .called c :: ([] ++ [.returned c r]) from rfl, acceptedOn_call]
    by_cases hu : c.Uses h
    · rw [hr h hu, editOn_refused]
      rfl
    · rw [editOn_unused hu]
      rfl

theorem CbRel.sameWorld {w : CbWorld} {c : CbCall} {r : CbReply} (hr : ∀ h, c.Uses h → r = .refused) :
    CbRel w ((w.log (.called c)).log (.returned c r)) [.called c, .returned c r] := CbRel.same w.engine hr

/-- A call that first changes the objects it uses, then lets others act, and then changes them again. -/
theorem CbRel.wrap {w w1 w2 w3 : CbWorld} {es : List CbEvent} {c : CbCall} {r : CbReply}
    (ht1 : w1.trace = w.trace ++ [.called c]) (ht3 : w3.trace = w2.trace)
    (huse : ∀ h, c.Uses h → ∃ g, w.objs[h]? = some g)
    (h1 : ∀ h : Nat, ¬c.Uses h → w1.objs[h]? = w.objs[h]?) (hr : CbRel w1 w2 es)
    (h3 : ∀ h : Nat, ¬c.Uses h → w3.objs[h]? = w2.objs[h]?)
    (hu : ∀ (h : Nat) g, c.Uses h → w.objs[h]? = some g → ∃ g3, w3.objs[h]? = some g3 ∧ Moves h (.called c :: (es ++ [.returned c r])) g g3) :
    CbRel w (w3.log (.returned c r)) (.called c :: (es ++ [.returned c r])) := by
  refine ⟨?_, fun h g e => ?_, fun h g' e e' => ?_, fun h e => ?_⟩
  · simp [CbWorld.log, ht3, hr.trace, ht1]
  · by_cases hh : c.Uses h
    · exact hu h g hh e
    · obtain ⟨g', e', m⟩ := hr.moves h g (by rw [h1 h hh]; exact e)
      exact ⟨g', by show w3.objs[h]? = _; rw [h3 h hh]; exact e', m.around hh⟩
  · by_cases hh : c.Uses h
    · obtain ⟨g, hg⟩ := huse h hh
      rw [e] at hg
      cases hg
    · obtain ⟨v, hv, m⟩ := hr.fresh h g' (by rw [h1 h hh]; exact e) (by rw [← h3 h hh]; exact e')
      exact ⟨v, hv, m.around hh⟩
  · change w3.objs[h]? = _ at e
    by_cases hh : c.Uses h
    · obtain ⟨g, hg⟩ := huse h hh
      obtain ⟨g3, e3, _⟩ := hu h g hh hg
      rw [e] at e3
      cases e3
    · rw [acceptedOn_call, hr.absent h (by rw [← h3 h hh]; exact e), editOn_unused hh]
      rfl

theorem CbRel.added {w : CbWorld} {c : CbCall} {r : CbReply} {v : Obj} (hv : v.Fresh) (hu : ∀ h, ¬c.Uses h) :
    CbRel w ({ w.log (.called c) with objs := w.objs ++ [Handle.mk v (some 0) false false] }.log (.returned c r)) [.called c, .returned c r] := by
  refine ⟨by simp [CbWorld.log], fun h g e => ⟨g, ?_, (Moves.refl h g).around (hu h)⟩, fun h g' e e' => ⟨v, hv, ?_⟩, fun h _ => ?_⟩
  · show (w.objs ++ _)[h]? = _
    rw [List.getElem?_append_left (List.getElem?_eq_some_iff.1 e).1]
    exact e
  · change (w.objs ++ _)[h]? = _ at e'
    rw [List.getElem?_append_right (List.getElem?_eq_none_iff.1 e)] at e'
    cases hk : h - w.objs.length with
    | zero =>
      rw [hk] at e'
      cases e'
      exact (Moves.refl h _).around (hu h)
    | succ k =>
      rw [hk] at e'
      simp at e'
  · rw [show [CbEvent.called c, .returned c r] = .called c :: ([] ++ [.returned c r]) from rfl, acceptedOn_call, editOn_unused (hu h)]
    rfl

theorem borrow_some {w w' : CbWorld} {h : Nat} (e : w.borrow h = some w') : ∃ v n d, w.objs[h]? = some ⟨v, some n, false, d⟩ ∧
    w' = { w with objs := w.objs.set h ⟨v, some (n + 1), false, d⟩ } := by
  unfold CbWorld.borrow at e
  split at e
  · rename_i v n d hg
    cases e
    exact ⟨v, n, d, hg, rfl⟩
  · cases e

theorem borrowMut_some {w w' : CbWorld} {h : Nat} (e : w.borrowMut h = some w') : ∃ v d, w.objs[h]? = some ⟨v, some 0, false, d⟩ ∧
    w' = { w with objs := w.objs.set h ⟨v, none, false, d⟩ } := by
  unfold CbWorld.borrowMut at e
  split at e
  · rename_i v d hg
    cases e
    exact ⟨v, d, hg, rfl⟩
  · cases e

theorem deref_ok {w : CbWorld} {h : Nat} {v : Obj} (e : w.deref h = .ok v) : ∃ f p, w.objs[h]? = some ⟨v, f, p, false⟩ := by
  unfold CbWorld.deref at e
  split at e
  · rename_i v f p hg
    cases e
    exact ⟨f, p, hg⟩
  · cases e

theorem write_ok {w w' : CbWorld} {h : Nat} {v : Obj} (e : w.write h v = .ok w') : ∃ v0 f p, w.objs[h]? = some ⟨v0, f, p, false⟩ ∧
    w' = { w with objs := w.objs.set h ⟨v, f, p, false⟩ } := by
  unfold CbWorld.write at e
  split at e
  · rename_i v0 f p hg
    cases e
    exact ⟨v0, f, p, hg, rfl⟩
  · cases e

theorem giveBack_ok {w w' : CbWorld} {h : Nat} (e : w.giveBack h = .ok w') : ∃ v f p, w.objs[h]? = some ⟨v, f, p, false⟩ ∧
    w' = { w with objs := w.objs.set h ⟨v, match f with
      | none => some 0
      | some n => some (n - 1), p, false⟩ } := by
  unfold CbWorld.giveBack at e
  split at e
  · rename_i v f p hg
    cases e
    exact ⟨v, f, p, hg, rfl⟩
  · cases e

theorem get_set_self {l : List Handle} {h : Nat} {g : Handle} (e : l[h]? = some g) (x : Handle) : (l.set h x)[h]? = some x := by
  rw [List.getElem?_set_self (List.getElem?_eq_some_iff.1 e).1]

/-- What a search does after its filter has been read. -/
theorem searchRead_ok {env : CbEnv} {w w' : CbWorld} {input : Str} {cats tags : Nat} {order : Option Str} {filters : List FeatureFilter}
    {r : CbReply} (e : w.searchRead env input cats tags order filters = .ok (w', r)) :
    ∃ ch th, w.deref cats = .ok (.cats ch) ∧ w.deref tags = .ok (.tags th) ∧
      ((∃ x eng, w.engine.searchFiltered .trap (env.order w.trace) env.lower input ch th order filters = (eng, .error x) ∧
          r = .trapped ∧ w' = { w with engine := eng }) ∨
        ∃ res eng w1 w2, w.engine.searchFiltered .trap (env.order w.trace) env.lower input ch th order filters = (eng, .ok res) ∧
          w.giveBack tags = .ok w1 ∧ w1.giveBack cats = .ok w2 ∧ r = .results res ∧ w' = { w2 with engine := eng }) := by
  unfold CbWorld.searchRead at e
  split at e
  · rename_i ch th hc ht
    refine ⟨ch, th, hc, ht, ?_⟩
    split at e
    · rename_i eng x hx
      cases e
      exact .inl ⟨x, eng, hx, rfl, rfl⟩
    · rename_i eng res hx
      simp only [bind, Except.bind] at e
      split at e
      · cases e
      rename_i w1 h1
      split at e
      · cases e
      rename_i w2 h2
      cases e
      exact .inr ⟨res, eng, w1, w2, hx, h1, h2, rfl, rfl⟩
  · cases e

/-- The borrows of a search while its filter is read, given back. -/
theorem giveBoth {w0 w2 w3 w4 : CbWorld} {es : List CbEvent} {cats tags : Nat} {c : CbCall} {r : CbReply} {cv tv : Obj} {n m : Nat} {dc dt : Bool}
    (hne : cats ≠ tags) (hc : w0.objs[cats]? = some ⟨cv, some n, false, dc⟩) (ht : w0.objs[tags]? = some ⟨tv, some m, false, dt⟩)
    (hr : CbRel ⟨w0.engine, (w0.objs.set cats ⟨cv, some (n + 1), false, dc⟩).set tags ⟨tv, some (m + 1), false, dt⟩,
      w0.trace ++ [.called c]⟩ w2 es)
    (h3 : w2.giveBack tags = .ok w3) (h4 : w3.giveBack cats = .ok w4)
    (hed : ∀ h, CbEvent.editOn h (.returned c r) = none) (hw : ∀ h, ¬c.Wants h) :
    w4.trace = w2.trace ∧ (∀ h : Nat, h ≠ cats → h ≠ tags → w4.objs[h]? = w2.objs[h]?) ∧
    (∃ g, w4.objs[cats]? = some g ∧ Moves cats (.called c :: (es ++ [.returned c r])) ⟨cv, some n, false, dc⟩ g) ∧
    ∃ g, w4.objs[tags]? = some g ∧ Moves tags (.called c :: (es ++ [.returned c r])) ⟨tv, some m, false, dt⟩ g := by
  obtain ⟨gc, ec, mc⟩ := hr.moves cats ⟨cv, some (n + 1), false, dc⟩ (by
    show ((w0.objs.set cats _).set tags _)[cats]? = _
    rw [List.getElem?_set_ne (Ne.symm hne), get_set_self hc])
  obtain ⟨gt, et, mt⟩ := hr.moves tags ⟨tv, some (m + 1), false, dt⟩ (by
    show ((w0.objs.set cats _).set tags _)[tags]? = _
    rw [get_set_self (g := ⟨tv, some m, false, dt⟩) (by rw [List.getElem?_set_ne hne]; exact ht)])
  obtain ⟨v3, f3, p3, e3, rfl⟩ := giveBack_ok h3
  rw [et] at e3
  cases e3
  obtain ⟨v4, f4, p4, e4, rfl⟩ := giveBack_ok h4
  simp only at e4
  rw [List.getElem?_set_ne (Ne.symm hne), ec] at e4
  cases e4
  obtain ⟨a, rfl, ha⟩ := mc.shared n rfl
  obtain ⟨b, rfl, hb⟩ := mt.shared m rfl
  have kc := mc.kept (by simp)
  have kt := mt.kept (by simp)
  have sc := mc.still (.inl (by simp))
  have st := mt.still (.inl (by simp))
  simp only at kc kt
  obtain ⟨rfl, rfl⟩ := kc
  obtain ⟨rfl, rfl⟩ := kt
  refine ⟨rfl, ?_, ⟨⟨v4, some (a - 1), p4, false⟩, get_set_self (g := ⟨v4, some a, p4, false⟩) (by
    rw [List.getElem?_set_ne (Ne.symm hne)]; exact ec) _, ?_⟩, ⟨⟨v3, some (b - 1), p3, false⟩, ?_, ?_⟩⟩
  · intro h h1 h2
    show ((w2.objs.set tags _).set cats _)[h]? = _
    rw [List.getElem?_set_ne (Ne.symm h1), List.getElem?_set_ne (Ne.symm h2)]
  · refine Moves.call rfl (fun _ => by simp [Handle.Sound]) (fun _ => ⟨rfl, rfl, sc, hed _⟩) (by simp) ?_ ?_ ?_ ?_ ?_
    · intro k hk
      cases hk
      exact ⟨a - 1, rfl, by omega⟩
    · intro _
      rw [sc, hed]
      rfl
    · intro k _ c' r' hm hw'
      exact mc.sharedRefused n rfl c' r' hm hw'
    · intro k _ hw'
      exact absurd hw' (hw _)
    · intro hcv
      have := mc.clean (hcv.right (a := [.called c])).left
      simp only [Option.some.injEq] at this ⊢
      omega
  · show ((w2.objs.set tags _).set cats _)[tags]? = _
    rw [List.getElem?_set_ne hne, get_set_self et]
  · refine Moves.call rfl (fun _ => by simp [Handle.Sound]) (fun _ => ⟨rfl, rfl, st, hed _⟩) (by simp) ?_ ?_ ?_ ?_ ?_
    · intro k hk
      cases hk
      exact ⟨b - 1, rfl, by omega⟩
    · intro _
      rw [st, hed]
      rfl
    · intro k _ c' r' hm hw'
      exact mt.sharedRefused m rfl c' r' hm hw'
    · intro k _ hw'
      exact absurd hw' (hw _)
    · intro hcv
      have := mt.clean (hcv.right (a := [.called c])).left
      simp only [Option.some.injEq] at this ⊢
      omega

/-- The borrows of a search that never gives them back. -/
theorem keepBoth {w0 w2 : CbWorld} {es : List CbEvent} {cats tags : Nat} {c : CbCall} {r : CbReply} {cv tv : Obj} {n m : Nat} {dc dt : Bool}
    (hne : cats ≠ tags) (hc : w0.objs[cats]? = some ⟨cv, some n, false, dc⟩) (ht : w0.objs[tags]? = some ⟨tv, some m, false, dt⟩)
    (hr : CbRel ⟨w0.engine, (w0.objs.set cats ⟨cv, some (n + 1), false, dc⟩).set tags ⟨tv, some (m + 1), false, dt⟩,
      w0.trace ++ [.called c]⟩ w2 es)
    (hed : ∀ h, CbEvent.editOn h (.returned c r) = none) (hw : ∀ h, ¬c.Wants h) (hciv : ¬Civil [.returned c r]) :
    (∃ g, w2.objs[cats]? = some g ∧ Moves cats (.called c :: (es ++ [.returned c r])) ⟨cv, some n, false, dc⟩ g) ∧
    ∃ g, w2.objs[tags]? = some g ∧ Moves tags (.called c :: (es ++ [.returned c r])) ⟨tv, some m, false, dt⟩ g := by
  have go : ∀ {h : Nat} {v : Obj} {k : Nat} {d : Bool} {g : Handle}, Moves h es ⟨v, some (k + 1), false, d⟩ g →
      Moves h (.called c :: (es ++ [.returned c r])) ⟨v, some k, false, d⟩ g := by
    intro h v k d g m
    obtain ⟨a, ea, ha⟩ := m.shared k rfl
    obtain ⟨k1, k2⟩ := m.kept (by simp)
    have st := m.still (.inl (by simp))
    refine Moves.call rfl (fun hs hd => by
      rw [k2] at hd
      exact absurd (hs hd).1 (by simp)) (fun _ => ⟨k1, k2, st, hed _⟩) (by simp) ?_ ?_ ?_ ?_ ?_
    · intro j hj
      cases hj
      exact ⟨a, ea, by omega⟩
    · intro _
      rw [st, hed, k1]
      rfl
    · intro j _ c' r' hm hw'
      exact m.sharedRefused k rfl c' r' hm hw'
    · intro j _ hw'
      exact absurd hw' (hw _)
    · intro hcv
      exact absurd (hcv.right (a := [.called c])).right hciv
  obtain ⟨gc, ec, mc⟩ := hr.moves cats ⟨cv, some (n + 1), false, dc⟩ (by
    show ((w0.objs.set cats _).set tags _)[cats]? = _
    rw [List.getElem?_set_ne (Ne.symm hne), get_set_self hc])
  obtain ⟨gt, et, mt⟩ := hr.moves tags ⟨tv, some (m + 1), false, dt⟩ (by
    show ((w0.objs.set cats _).set tags _)[tags]? = _
    rw [get_set_self (g := ⟨tv, some m, false, dt⟩) (by rw [List.getElem?_set_ne hne]; exact ht)])
  exact ⟨⟨gc, ec, go mc⟩, ⟨gt, et, go mt⟩⟩

theorem not_civil_trapped {c : CbCall} : ¬Civil [.returned c .trapped] := fun h => (h c _ (by simp)).1 rfl
theorem not_civil_threw {c : CbCall} : ¬Civil [.returned c .threw] := fun h => (h c _ (by simp)).2.1 rfl

/-- A call that changes only its own object, at once. -/
theorem CbRel.single {w w' : CbWorld} {c : CbCall} {r : CbReply} {h : Nat} {g g' : Handle} (huse : ∀ h', c.Uses h' → h' = h)
    (hg : w.objs[h]? = some g) (ho : w'.objs = w.objs.set h g') (ht : w'.trace = w.trace ++ [.called c])
    (hm : Moves h [.called c, .returned c r] g g') :
    CbRel w (w'.log (.returned c r)) [.called c, .returned c r] := by
  by_cases hu : c.Uses h
  · refine CbRel.wrap (w1 := w.log (.called c)) (w2 := w.log (.called c)) (es := []) rfl ?_ ?_ (fun _ _ => rfl) (.refl _) ?_ ?_
    · rw [ht]; rfl
    · intro h' hu'
      rw [huse h' hu']
      exact ⟨g, hg⟩
    · intro h' hu'
      rw [ho, List.getElem?_set_ne (fun e => hu' (by rw [← e]; exact hu))]
      rfl
    · intro h' g1 hu' e1
      have := huse h' hu'
      subst this
      rw [hg] at e1
      cases e1
      exact ⟨g', by rw [ho, get_set_self hg], hm⟩
  · have hac : acceptedOn h [.called c, .returned c r] = [] := by
      have := acceptedOn_call (h := h) (es := []) (c := c) (r := r)
      rw [editOn_unused hu] at this
      exact this
    have hn : ∀ h', ¬c.Uses h' := fun h' hu' => hu (huse h' hu' ▸ hu')
    refine ⟨by simp [CbWorld.log, ht], fun h' g1 e1 => ?_, fun h' g1 e1 e2 => ?_, fun h' e1 => ?_⟩
    · by_cases hh : h' = h
      · subst hh
        rw [hg] at e1
        cases e1
        exact ⟨g', by show w'.objs[h']? = _; rw [ho, get_set_self hg], hm⟩
      · refine ⟨g1, ?_, (Moves.refl h' g1).around (hn h')⟩
        show w'.objs[h']? = _
        rw [ho, List.getElem?_set_ne (Ne.symm hh)]
        exact e1
    · exfalso
      change w'.objs[h']? = _ at e2
      rw [ho] at e2
      have h1 := (List.getElem?_eq_some_iff.1 e2).1
      rw [List.length_set] at h1
      rw [List.getElem?_eq_none_iff] at e1
      omega
    · have := acceptedOn_call (h := h') (es := []) (c := c) (r := r)
      rw [editOn_unused (hn h')] at this
      exact this

/-- One call, whatever JavaScript code it runs. -/
theorem step_rel {env : CbEnv} {run : Runner} (hr : run.Fine) {w w' : CbWorld} {c : CbCall} {r : CbReply}
    (h : (w.log (.called c)).step env run c = .ok (w', r)) :
    ∃ es, CbRel w (w'.log (.returned c r)) (.called c :: (es ++ [.returned c r])) := by
  cases c with
  | «initialize» file =>
    simp only [CbWorld.step] at h
    split at h <;> cases h <;> exact ⟨[], CbRel.same _ (fun _ hu => hu.elim)⟩
  | getCategories =>
    simp only [CbWorld.step] at h
    split at h
    · cases h; exact ⟨[], CbRel.sameWorld (fun _ hu => hu.elim)⟩
    · cases h; exact ⟨[], CbRel.sameWorld (fun _ hu => hu.elim)⟩
    · rename_i hh e
      cases h
      exact ⟨[], CbRel.added ((getCategories_fresh e).imp fun _ e => .inl (by rw [e])) (fun _ hu => hu.elim)⟩
  | getTags =>
    simp only [CbWorld.step] at h
    split at h
    · cases h; exact ⟨[], CbRel.sameWorld (fun _ hu => hu.elim)⟩
    · cases h; exact ⟨[], CbRel.sameWorld (fun _ hu => hu.elim)⟩
    · rename_i hh e
      cases h
      exact ⟨[], CbRel.added ((getTags_fresh e).imp fun _ e => .inr (by rw [e])) (fun _ hu => hu.elim)⟩
  | edit h0 e =>
    simp only [CbWorld.step] at h
    split at h
    · cases h; exact ⟨[], CbRel.sameWorld (fun _ _ => rfl)⟩
    rename_i x hk
    split at h
    · cases h; exact ⟨[], CbRel.sameWorld (fun _ _ => rfl)⟩
    rename_i w1 hb
    obtain ⟨v, d, hg, rfl⟩ := borrowMut_some hb
    change w.objs[h0]? = _ at hg
    simp only [bind, Except.bind] at h
    split at h
    · cases h
    rename_i v1 hd
    obtain ⟨f1, p1, hg1⟩ := deref_ok hd
    change (w.objs.set h0 _)[h0]? = _ at hg1
    rw [get_set_self hg] at hg1
    cases hg1
    have hkv : v.edit e = some x := by
      simp only [CbWorld.kept, CbWorld.log, hg] at hk
      exact hk
    split at h
    · rename_i hn
      rw [hn] at hkv
      cases hkv
    · cases h
      refine ⟨[], CbRel.single (fun _ hu => hu.symm) hg rfl rfl ?_⟩
      refine Moves.call (es := []) rfl (fun _ => by simp [Handle.Sound]) (by simp) (by simp) (by simp) (by simp) (by simp) (by simp) ?_
      intro hc
      exact absurd (hc.right (a := [.called (.edit h0 e)])) not_civil_trapped
    · rename_i v2 calls he
      split at h
      · cases h
      rename_i w2 hw
      obtain ⟨v3, f3, p3, hg3, rfl⟩ := write_ok hw
      change (w.objs.set h0 _)[h0]? = _ at hg3
      rw [get_set_self hg] at hg3
      cases hg3
      split at h
      · cases h
      rename_i w3 hn
      obtain ⟨es, rel⟩ := notifyJobs_rel hr _ hn
      split at h
      · cases h
      rename_i w4 hgb
      cases h
      have hself : ((w.objs.set h0 ⟨v, none, false, false⟩).set h0 ⟨v2, none, false, false⟩)[h0]? = some (Handle.mk v2 none false false) :=
        get_set_self (get_set_self hg _) _
      obtain ⟨g3, e3, m3⟩ := rel.moves h0 _ hself
      obtain ⟨v4, f4, p4, e4, rfl⟩ := giveBack_ok hgb
      rw [e3] at e4
      cases e4
      have hf := m3.busy rfl
      have hk := m3.kept (by simp)
      have hs := m3.still (.inl (by simp))
      simp only at hf hk
      obtain ⟨rfl, -⟩ := hk
      subst hf
      refine ⟨es, CbRel.wrap (w2 := w3) (hr := rel) rfl rfl ?_ ?_ ?_ ?_⟩
      · rintro h' rfl
        exact ⟨_, hg⟩
      · intro h' hu'
        show ((w.objs.set h0 _).set h0 _)[h']? = _
        rw [List.getElem?_set_ne hu', List.getElem?_set_ne hu']
      · intro h' hu'
        show (w3.objs.set h0 _)[h']? = _
        rw [List.getElem?_set_ne hu']
      · rintro h' g' rfl eg
        rw [hg] at eg
        cases eg
        refine ⟨_, get_set_self e3 _, ?_⟩
        have hed : CbEvent.editOn h0 (.returned (.edit h0 e) .done) = some e := by simp [CbEvent.editOn]
        refine Moves.call rfl (fun _ => by simp [Handle.Sound]) (by simp) (by simp) (by simp) (fun _ => ?_) (by simp) (by simp) (fun _ => rfl)
        rw [hs, hed]
        simp [Obj.after, he]
  | editFreed h0 =>
    simp only [CbWorld.step] at h
    split at h
    · cases h; exact ⟨[], CbRel.sameWorld (fun _ _ => rfl)⟩
    rename_i w1 hb
    obtain ⟨v, d, hg, rfl⟩ := borrowMut_some hb
    change w.objs[h0]? = _ at hg
    cases h
    refine ⟨[], CbRel.single (fun _ hu => hu.symm) hg rfl rfl ?_⟩
    refine Moves.call (es := []) rfl (fun hs hd => absurd (hs hd).1 (by simp)) (by simp) (by simp) (by simp) (by simp) (by simp) (by simp) ?_
    intro hc
    have := (hc _ _ (List.mem_cons_of_mem _ (List.mem_cons_self ..))).2.2 rfl
    simp at this
  | status h0 i =>
    simp only [CbWorld.step] at h
    split at h
    · cases h; exact ⟨[], CbRel.sameWorld (fun _ _ => rfl)⟩
    split at h
    · cases h; exact ⟨[], CbRel.sameWorld (fun _ _ => rfl)⟩
    rename_i w1 hb
    obtain ⟨v, n, d, hg, rfl⟩ := borrow_some hb
    change w.objs[h0]? = _ at hg
    simp only [bind, Except.bind] at h
    split at h
    · cases h
    split at h
    · cases h
    rename_i w2 hgb
    cases h
    obtain ⟨v4, f4, p4, e4, rfl⟩ := giveBack_ok hgb
    change (w.objs.set h0 _)[h0]? = _ at e4
    rw [get_set_self hg] at e4
    cases e4
    refine ⟨[], CbRel.single (fun _ hu => hu.symm) hg (g' := ⟨v, some n, false, false⟩) (by simp [CbWorld.log]) rfl ?_⟩
    exact Moves.call (es := []) rfl (fun _ => by simp [Handle.Sound]) (fun _ => ⟨rfl, rfl, rfl, rfl⟩) (by simp)
      (fun k hk => by cases hk; exact ⟨k + 1, rfl, Nat.le_refl _⟩) (fun _ => rfl) (by simp) (fun _ _ hw => hw.elim) (fun _ => rfl)
  | statusFreed h0 =>
    simp only [CbWorld.step] at h
    split at h
    · cases h; exact ⟨[], CbRel.sameWorld (fun _ _ => rfl)⟩
    rename_i w1 hb
    obtain ⟨v, n, d, hg, rfl⟩ := borrow_some hb
    change w.objs[h0]? = _ at hg
    cases h
    refine ⟨[], CbRel.single (fun _ hu => hu.symm) hg rfl rfl ?_⟩
    refine Moves.call (es := []) rfl (fun hs hd => absurd (hs hd).1 (by simp)) (fun _ => ⟨rfl, rfl, rfl, rfl⟩) (by simp)
      (fun k hk => by cases hk; exact ⟨k + 2, rfl, by omega⟩) (fun _ => rfl) (by simp) (fun _ _ hw => hw.elim) ?_
    intro hc
    have := (hc _ _ (List.mem_cons_of_mem _ (List.mem_cons_self ..))).2.2 rfl
    simp at this
  | search input cats tags order filter =>
    have hed : ∀ (r : CbReply) h, CbEvent.editOn h (.returned (.search input cats tags order filter) r) = none := fun _ _ => rfl
    have hwants : ∀ h, ¬(CbCall.search input cats tags order filter).Wants h := fun _ hw => hw
    simp only [CbWorld.step] at h
    split at h
    · rename_i c0 t0 hkc hkt
      have hne : cats ≠ tags := by
        rintro rfl
        rw [hkc] at hkt
        cases hkt
      split at h
      · cases h; exact ⟨[], CbRel.sameWorld (fun _ _ => rfl)⟩
      rename_i w1 hb
      obtain ⟨cv, n, dc, hc, rfl⟩ := borrow_some hb
      change w.objs[cats]? = _ at hc
      obtain ⟨gt, hgt⟩ : ∃ gt, w.objs[tags]? = some gt := by
        simp only [CbWorld.kept, CbWorld.log] at hkt
        cases e : w.objs[tags]? with
        | none => rw [e] at hkt; cases hkt
        | some g => exact ⟨g, rfl⟩
      split at h
      · cases h
        refine ⟨[], CbRel.wrap (w1 := w.log _) (w2 := w.log _) (es := []) rfl rfl ?_ (fun _ _ => rfl) (.refl _) ?_ ?_⟩
        · rintro h' (rfl | rfl)
          · exact ⟨_, hc⟩
          · exact ⟨_, hgt⟩
        · intro h' hu'
          show (w.objs.set cats _)[h']? = _
          rw [List.getElem?_set_ne (fun e => hu' (.inl e))]
          rfl
        · intro h' g' hu' eg
          by_cases hh : cats = h'
          · subst hh
            rw [hc] at eg
            cases eg
            refine ⟨_, get_set_self hc _, ?_⟩
            refine Moves.call (es := []) rfl (fun hs hd => absurd (hs hd).1 (by simp)) (fun _ => ⟨rfl, rfl, rfl, rfl⟩) (by simp)
              (fun k hk => by cases hk; exact ⟨k + 2, rfl, by omega⟩) (fun _ => rfl) (by simp) (fun _ _ hw => hw.elim) ?_
            intro hc'
            have := (hc' _ _ (List.mem_cons_of_mem _ (List.mem_cons_self ..))).2.2 rfl
            simp at this
          · refine ⟨g', ?_, .refusedCall h' _ g'⟩
            show (w.objs.set cats _)[h']? = _
            rw [List.getElem?_set_ne hh]
            exact eg
      rename_i w2 hb2
      obtain ⟨tv, m, dt, ht, rfl⟩ := borrow_some hb2
      change (w.objs.set cats _)[tags]? = _ at ht
      rw [List.getElem?_set_ne hne] at ht
      simp only [bind, Except.bind] at h
      split at h
      · cases h
      rename_i x hread
      obtain ⟨w3, read⟩ := x
      obtain ⟨es, rel⟩ := readFilter_rel hr hread
      have huse : ∀ h', (CbCall.search input cats tags order filter).Uses h' → ∃ g, w.objs[h']? = some g := by
        rintro h' (rfl | rfl)
        · exact ⟨_, hc⟩
        · exact ⟨_, ht⟩
      have hfirst : ∀ h' : Nat, ¬(CbCall.search input cats tags order filter).Uses h' →
          ((w.objs.set cats ⟨cv, some (n + 1), false, dc⟩).set tags ⟨tv, some (m + 1), false, dt⟩)[h']? = w.objs[h']? := by
        intro h' hu'
        rw [List.getElem?_set_ne (fun e => hu' (.inr e)), List.getElem?_set_ne (fun e => hu' (.inl e))]
      have keep : ∀ (w5 : CbWorld) (r : CbReply), w5.objs = w3.objs → w5.trace = w3.trace →
          ¬Civil [.returned (.search input cats tags order filter) r] →
          CbRel w (w5.log (.returned (.search input cats tags order filter) r))
            (.called (.search input cats tags order filter) :: (es ++ [.returned (.search input cats tags order filter) r])) := by
        intro w5 r ho ht5 hciv
        obtain ⟨⟨g1, e1, m1⟩, ⟨g2, e2, m2⟩⟩ := keepBoth hne hc ht rel (hed r) hwants hciv
        refine CbRel.wrap rfl ht5 huse hfirst rel (fun _ _ => by rw [ho]) ?_
        rintro h' g' (rfl | rfl) eg
        · rw [hc] at eg
          cases eg
          exact ⟨g1, by rw [ho]; exact e1, m1⟩
        · rw [ht] at eg
          cases eg
          exact ⟨g2, by rw [ho]; exact e2, m2⟩
      have give : ∀ (w4 w5 w6 : CbWorld) (r : CbReply), w3.giveBack tags = .ok w4 → w4.giveBack cats = .ok w5 → w6.objs = w5.objs →
          w6.trace = w5.trace →
          CbRel w (w6.log (.returned (.search input cats tags order filter) r))
            (.called (.search input cats tags order filter) :: (es ++ [.returned (.search input cats tags order filter) r])) := by
        intro w4 w5 w6 r h4 h5 ho ht6
        obtain ⟨ht5, hrest, ⟨g1, e1, m1⟩, ⟨g2, e2, m2⟩⟩ := giveBoth (r := r) hne hc ht rel h4 h5 (hed r) hwants
        refine CbRel.wrap rfl (ht6.trans ht5) huse hfirst rel (fun h' hu' => ?_) ?_
        · rw [ho]
          exact hrest h' (fun e => hu' (.inl e.symm)) (fun e => hu' (.inr e.symm))
        · rintro h' g' (rfl | rfl) eg
          · rw [hc] at eg
            cases eg
            exact ⟨g1, by rw [ho]; exact e1, m1⟩
          · rw [ht] at eg
            cases eg
            exact ⟨g2, by rw [ho]; exact e2, m2⟩
      simp only at h
      split at h
      · cases h
        exact ⟨es, keep _ _ rfl rfl not_civil_threw⟩
      · split at h
        · cases h
        rename_i w4 h4
        split at h
        · cases h
        rename_i w5 h5
        cases h
        exact ⟨es, give w4 _ _ _ h4 h5 rfl rfl⟩
      · obtain ⟨_, _, _, _, ⟨x, eng, _, rfl, rfl⟩ | ⟨res, eng, w4, w5, _, h4, h5, rfl, rfl⟩⟩ := searchRead_ok h
        · exact ⟨es, keep _ _ rfl rfl not_civil_trapped⟩
        · exact ⟨es, give w4 w5 _ _ h4 h5 rfl rfl⟩
    · cases h; exact ⟨[], CbRel.sameWorld (fun _ _ => rfl)⟩
  | free h0 =>
    simp only [CbWorld.step] at h
    split at h
    · rename_i v d hg
      change w.objs[h0]? = _ at hg
      cases h
      refine ⟨[], CbRel.single (fun _ hu => hu.symm) hg rfl rfl ?_⟩
      exact Moves.call (es := []) rfl (fun _ _ => ⟨rfl, rfl⟩) (by simp) (by simp) (by simp) (fun _ => rfl) (by simp) (by simp) (fun _ => rfl)
    · rename_i g hn hg
      change w.objs[h0]? = _ at hg
      cases h
      refine ⟨[], CbRel.single (fun _ hu => hu.symm) hg rfl rfl ?_⟩
      have m := Moves.refusedCall h0 (.free h0) g
      exact ⟨fun _ => rfl, m.still, m.kept, m.busy, m.shared, m.value, fun hs hd => ⟨rfl, (hs hd).2⟩, m.refused, m.sharedRefused, m.clean⟩
    · cases h; exact ⟨[], CbRel.sameWorld (fun _ _ => rfl)⟩

theorem cbPerform_rel {env : CbEnv} {run : Runner} (hr : run.Fine) {w w' : CbWorld} {c : CbCall} {r : CbReply}
    (h : w.perform env run c = .ok (w', r)) : ∃ es, CbRel w w' (.called c :: (es ++ [.returned c r])) := by
  unfold CbWorld.perform at h
  simp only [bind, Except.bind] at h
  split at h
  · cases h
  rename_i x e
  obtain ⟨w1, r1⟩ := x
  cases h
  exact step_rel hr e

theorem runCode_rel {env : CbEnv} {run : Runner} (hr : run.Fine) (s : CbScript) : ∀ {w w' : CbWorld} {out : JobEnd},
    runCode env run w s = .ok (w', out) → ∃ es, CbRel w w' es := by
  induction s with
  | finish out =>
    intro w w' out' h
    cases h
    exact ⟨[], .refl w⟩
  | call c next ih =>
    intro w w' out h
    unfold runCode at h
    simp only [bind, Except.bind] at h
    split at h
    · cases h
    rename_i x e
    obtain ⟨w1, r1⟩ := x
    obtain ⟨_, r1⟩ := cbPerform_rel hr e
    obtain ⟨_, r2⟩ := ih _ h
    exact ⟨_, r1.trans r2⟩

theorem runJob_fine (env : CbEnv) : ∀ depth, (runJob env depth).Fine
  | 0 => fun _ _ _ _ h => by cases h
  | depth + 1 => fun w j w' out h => by
    unfold runJob at h
    simp only [bind, Except.bind] at h
    split at h
    · cases h
    rename_i x e
    obtain ⟨w1, out1⟩ := x
    cases h
    obtain ⟨_, r⟩ := runCode_rel (runJob_fine env depth) _ e
    exact ⟨_, (CbRel.logged w (.started j) (by simp)).trans (r.trans (CbRel.logged w1 (.ended j out1) (by simp)))⟩

theorem runProgram_rel {env : CbEnv} {depth : Nat} {w w' : CbWorld} {s : CbScript} (h : runProgram env depth w s = .ok w') :
    ∃ es, CbRel w w' es := by
  unfold runProgram at h
  cases e : runCode env (runJob env depth) w s with
  | error x => rw [e] at h; cases h
  | ok x =>
    obtain ⟨w1, out⟩ := x
    rw [e] at h
    cases h
    exact runCode_rel (runJob_fine env depth) s e

end Idx
