import Verif.Lemmas.Callbacks
/-! What is loaded and what is read while JavaScript code runs, and that memory given back is not used. -/
namespace Idx

/-! ## Memory -/

def CbWorld.Sound (w : CbWorld) : Prop := ∀ (h : Nat) g, w.objs[h]? = some g → g.Sound

theorem CbRel.sound {w w' : CbWorld} {es : List CbEvent} (hr : CbRel w w' es) (hs : w.Sound) : w'.Sound := by
  intro h g' e'
  cases e : w.objs[h]? with
  | none =>
    obtain ⟨v, _, m⟩ := hr.fresh h g' e e'
    exact m.sound (by simp [Handle.Sound])
  | some g =>
    obtain ⟨g2, e2, m⟩ := hr.moves h g e
    rw [e'] at e2
    cases e2
    exact m.sound (hs h g e)

theorem CbWorld.Sound.set {w : CbWorld} (hs : w.Sound) (h : Nat) (g : Handle) (hg : g.Sound) (e : Engine) (t : List CbEvent) :
    CbWorld.Sound ⟨e, w.objs.set h g, t⟩ := by
  intro h' g' e'
  simp only [List.getElem?_set] at e'
  split at e'
  · split at e'
    · cases e'
      exact hg
    · cases e'
  · exact hs h' g' e'

def Runner.Safe (run : Runner) : Prop := ∀ w j, w.Sound → run w j ≠ .error .useAfterFree

theorem notifyJobs_safe {run : Runner} (hf : run.Fine) (hr : run.Safe) : ∀ (calls : List Call) (w : CbWorld), w.Sound →
    notifyJobs run w calls ≠ .error .useAfterFree
  | [], w, _, h => by cases h
  | (f, b) :: rest, w, hs, h => by
    unfold notifyJobs at h
    cases e : run w (.observer f b) with
    | error s =>
      rw [e] at h
      cases h
      exact hr _ _ hs e
    | ok r =>
      obtain ⟨w1, out⟩ := r
      rw [e] at h
      obtain ⟨_, r1⟩ := hf _ _ _ _ e
      exact notifyJobs_safe hf hr rest w1 (r1.sound hs) h

theorem getValue_safe {run : Runner} (hr : run.Safe) {w : CbWorld} {o : JsRef} {key : Str} (hs : w.Sound) :
    getValue run w o key ≠ .error .useAfterFree := by
  intro h
  unfold getValue at h
  cases e : run w (.get o key) with
  | error s =>
    rw [e] at h
    cases h
    exact hr _ _ hs e
  | ok r =>
    rw [e] at h
    simp only [bind, Except.bind] at h
    split at h <;> cases h

theorem readExact_safe {run : Runner} (hr : run.Safe) {w : CbWorld} {feature : Str} {o : JsRef} (hs : w.Sound) :
    readExact run w feature o ≠ .error .useAfterFree := by
  intro h
  unfold readExact at h
  split at h
  · rename_i e
    cases h
    exact getValue_safe hr hs e
  · cases h

theorem readValue_safe {run : Runner} (hf : run.Fine) (hr : run.Safe) {w : CbWorld} {feature : Str} {o : JsRef} (hs : w.Sound) :
    readValue run w feature o ≠ .error .useAfterFree := by
  intro h
  unfold readValue at h
  split at h
  · rename_i e
    cases h
    exact getValue_safe hr hs e
  · rename_i e
    obtain ⟨_, r1⟩ := getValue_rel hf e
    exact readExact_safe hr (r1.sound hs) h
  · rename_i e
    obtain ⟨_, r1⟩ := getValue_rel hf e
    split at h
    · rename_i e2
      cases h
      exact getValue_safe hr (r1.sound hs) e2
    · cases h
    · rename_i e2
      obtain ⟨_, r2⟩ := getValue_rel hf e2
      exact readExact_safe hr (r2.sound (r1.sound hs)) h

theorem readFeatures_safe {run : Runner} (hf : run.Fine) (hr : run.Safe) : ∀ (l : List (Str × JsRef)) (w : CbWorld), w.Sound →
    readFeatures run w l ≠ .error .useAfterFree
  | [], w, _, h => by cases h
  | (feature, o) :: rest, w, hs, h => by
    unfold readFeatures at h
    split at h
    · rename_i e
      cases h
      exact readValue_safe hf hr hs e
    · cases h
    · rename_i e
      obtain ⟨_, r1⟩ := readValue_rel hf e
      split at h
      · rename_i e2
        cases h
        exact readFeatures_safe hf hr rest _ (r1.sound hs) e2
      · cases h

theorem readFilter_safe {run : Runner} (hf : run.Fine) (hr : run.Safe) {w : CbWorld} {o : JsRef} (hs : w.Sound) :
    readFilter run w o ≠ .error .useAfterFree := by
  intro h
  unfold readFilter at h
  cases e : run w (.entries o) with
  | error s =>
    rw [e] at h
    cases h
    exact hr _ _ hs e
  | ok r =>
    obtain ⟨w1, out⟩ := r
    rw [e] at h
    obtain ⟨_, r1⟩ := hf _ _ _ _ e
    simp only [bind, Except.bind] at h
    split at h
    · split at h
      · rename_i e2
        cases h
        exact readFeatures_safe hf hr _ _ (r1.sound hs) e2
      · cases h
    · cases h

theorem deref_eq {w : CbWorld} {h : Nat} {v : Obj} {f : Option Nat} {p : Bool} (e : w.objs[h]? = some ⟨v, f, p, false⟩) :
    w.deref h = .ok v := by
  unfold CbWorld.deref
  rw [e]

theorem giveBack_eq {w : CbWorld} {h : Nat} {v : Obj} {f : Option Nat} {p : Bool} (e : w.objs[h]? = some ⟨v, f, p, false⟩) :
    ∃ f', w.giveBack h = .ok { w with objs := w.objs.set h ⟨v, f', p, false⟩ } := by
  unfold CbWorld.giveBack
  rw [e]
  exact ⟨_, rfl⟩

theorem write_eq {w : CbWorld} {h : Nat} {v v' : Obj} {f : Option Nat} {p : Bool} (e : w.objs[h]? = some ⟨v, f, p, false⟩) :
    w.write h v' = .ok { w with objs := w.objs.set h ⟨v', f, p, false⟩ } := by
  unfold CbWorld.write
  rw [e]

theorem Handle.Sound.live {g : Handle} (hs : g.Sound) (hf : g.forgotten = false) : g.dropped = false := by
  cases e : g.dropped with
  | false => rfl
  | true =>
    have := (hs e).1
    rw [hf] at this
    cases this

/-- A search on two objects that can be borrowed: what it does after reading. -/
theorem search_step {env : CbEnv} {run : Runner} (hf : run.Fine) {w : CbWorld} (hs : w.Sound) {input : Str} {cats tags : Nat}
    {order : Option Str} {filter : JsRef} {ch : CategoryHandler} {th : TagHandler} {n m : Nat} {dc dt : Bool}
    (hc : w.objs[cats]? = some ⟨.cats ch, some n, false, dc⟩) (ht : w.objs[tags]? = some ⟨.tags th, some m, false, dt⟩) :
    ∃ w1, w1.Sound ∧ w1.trace = w.trace ∧ w1.engine = w.engine ∧
      w1.objs = (w.objs.set cats ⟨.cats ch, some (n + 1), false, dc⟩).set tags ⟨.tags th, some (m + 1), false, dt⟩ ∧
      match readFilter run w1 filter with
      | .error s => w.step env run (.search input cats tags order filter) = .error s
      | .ok (w2, read) => ∃ w3 w4, w2.giveBack tags = .ok w3 ∧ w3.giveBack cats = .ok w4 ∧ w4.engine = w2.engine ∧ w4.trace = w2.trace ∧
        w.step env run (.search input cats tags order filter) = match read with
          | none => .ok (w2, .threw)
          | some none => .ok (w4, .results none)
          | some (some filters) =>
            match w2.engine.searchFiltered .trap (env.order w2.trace) env.lower input ch th order filters with
            | (e, .error _) => .ok ({ w2 with engine := e }, .trapped)
            | (e, .ok r) => .ok ({ w4 with engine := e }, .results r) := by
  have hne : cats ≠ tags := by
    rintro rfl
    rw [hc] at ht
    cases ht
  have hdc := (hs cats _ hc).live rfl
  have hdt := (hs tags _ ht).live rfl
  simp only at hdc hdt
  subst hdc hdt
  have hb1 : w.borrow cats = some { w with objs := w.objs.set cats ⟨.cats ch, some (n + 1), false, false⟩ } := by
    unfold CbWorld.borrow
    rw [hc]
  have ht1 : (w.objs.set cats ⟨.cats ch, some (n + 1), false, false⟩)[tags]? = some ⟨.tags th, some m, false, false⟩ := by
    rw [List.getElem?_set_ne hne]
    exact ht
  have hb2 : ({ w with objs := w.objs.set cats ⟨.cats ch, some (n + 1), false, false⟩ } : CbWorld).borrow tags = some
      { w with objs := (w.objs.set cats ⟨.cats ch, some (n + 1), false, false⟩).set tags ⟨.tags th, some (m + 1), false, false⟩ } := by
    unfold CbWorld.borrow
    simp only [ht1]
  have hs1 : CbWorld.Sound { w with objs := (w.objs.set cats ⟨.cats ch, some (n + 1), false, false⟩).set tags ⟨.tags th, some (m + 1), false, false⟩ } :=
    CbWorld.Sound.set (w := { w with objs := w.objs.set cats ⟨.cats ch, some (n + 1), false, false⟩ })
      (hs.set cats ⟨.cats ch, some (n + 1), false, false⟩ (by simp [Handle.Sound]) _ _) tags _ (by simp [Handle.Sound]) _ _
  refine ⟨_, hs1, rfl, rfl, rfl, ?_⟩
  have hstep : ∀ x, readFilter run { w with objs := (w.objs.set cats ⟨.cats ch, some (n + 1), false, false⟩).set tags ⟨.tags th, some (m + 1), false, false⟩ } filter = x →
      w.step env run (.search input cats tags order filter) = (do
        let (w, read) ← x
        match read with
        | none => .ok (w, .threw)
        | some none =>
          let w ← w.giveBack tags
          let w ← w.giveBack cats
          .ok (w, .results none)
        | some (some filters) => w.searchRead env input cats tags order filters) := by
    intro x hx
    simp only [CbWorld.step, CbWorld.kept, hc, ht, Option.map_some, hb1, hb2, hx]
    rfl
  split
  · rename_i s e
    rw [hstep _ e]
    rfl
  · rename_i w2 read e
    obtain ⟨es, rel⟩ := readFilter_rel hf e
    obtain ⟨gc, ec, mc⟩ := rel.moves cats ⟨.cats ch, some (n + 1), false, false⟩ (by
      show ((w.objs.set cats _).set tags _)[cats]? = _
      rw [List.getElem?_set_ne (Ne.symm hne), get_set_self hc])
    obtain ⟨gt, et, mt⟩ := rel.moves tags ⟨.tags th, some (m + 1), false, false⟩ (get_set_self ht1 _)
    have kc := mc.kept (by simp)
    have kt := mt.kept (by simp)
    obtain ⟨vc, fc, pc, dc⟩ := gc
    obtain ⟨vt, ft, pt, dt⟩ := gt
    simp only at kc kt
    obtain ⟨rfl, rfl⟩ := kc
    obtain ⟨rfl, rfl⟩ := kt
    obtain ⟨f1, g1⟩ := giveBack_eq et
    obtain ⟨f2, g2⟩ := giveBack_eq (w := { w2 with objs := w2.objs.set tags ⟨.tags th, f1, pt, false⟩ }) (h := cats) (v := .cats ch) (f := fc) (p := pc) (by
        show (w2.objs.set tags _)[cats]? = _
        rw [List.getElem?_set_ne (Ne.symm hne)]
        exact ec)
    refine ⟨_, _, g1, g2, rfl, rfl, ?_⟩
    rw [hstep _ e]
    simp only [bind, Except.bind]
    cases read with
    | none => rfl
    | some read =>
      cases read with
      | none => simp only [g1, g2]
      | some filters =>
        simp only [CbWorld.searchRead, deref_eq ec, deref_eq et, bind, Except.bind]
        split
        · rename_i es
          simp only [es]
        · rename_i es
          simp only [es, g1, g2]

theorem search_unusable {env : CbEnv} {run : Runner} {w : CbWorld} {input : Str} {cats tags : Nat}
    {order : Option Str} {filter : JsRef}
    (hn : ¬((∃ ch n d, w.objs[cats]? = some ⟨.cats ch, some n, false, d⟩) ∧ ∃ th n d, w.objs[tags]? = some ⟨.tags th, some n, false, d⟩)) :
    ∃ w', w.step env run (.search input cats tags order filter) = .ok (w', .refused) := by
  simp only [CbWorld.step]
  split
  · rename_i ch th hc ht
    simp only [CbWorld.kept, Option.map_eq_some_iff] at hc ht
    obtain ⟨gc, ec, hc⟩ := hc
    obtain ⟨gt, et, ht⟩ := ht
    cases hb : w.borrow cats with
    | none => exact ⟨_, rfl⟩
    | some w1 =>
      obtain ⟨v, n, d, e, rfl⟩ := borrow_some hb
      rw [ec] at e
      cases e
      simp only at hc
      subst hc
      simp only
      cases hb2 : ({ w with objs := w.objs.set cats ⟨.cats ch, some (n + 1), false, d⟩ } : CbWorld).borrow tags with
      | none => exact ⟨_, rfl⟩
      | some w2 =>
        exfalso
        obtain ⟨v2, n2, d2, e2, _⟩ := borrow_some hb2
        have hne : cats ≠ tags := by
          rintro rfl
          rw [ec] at et
          cases et
          cases ht
        simp only at e2
        rw [List.getElem?_set_ne hne, et] at e2
        cases e2
        simp only at ht
        subst ht
        exact hn ⟨⟨_, _, _, ec⟩, ⟨_, _, _, et⟩⟩
  · exact ⟨_, rfl⟩

theorem step_safe {env : CbEnv} {run : Runner} (hf : run.Fine) (hr : run.Safe) {w : CbWorld} (hs : w.Sound) (c : CbCall) :
    w.step env run c ≠ .error .useAfterFree := by
  intro h
  cases c with
  | «initialize» file => simp only [CbWorld.step] at h; split at h <;> cases h
  | getCategories => simp only [CbWorld.step] at h; split at h <;> cases h
  | getTags => simp only [CbWorld.step] at h; split at h <;> cases h
  | editFreed h0 => simp only [CbWorld.step] at h; split at h <;> cases h
  | statusFreed h0 => simp only [CbWorld.step] at h; split at h <;> cases h
  | free h0 => simp only [CbWorld.step] at h; split at h <;> cases h
  | edit h0 e =>
    simp only [CbWorld.step] at h
    split at h
    · cases h
    split at h
    · cases h
    rename_i w1 hb
    obtain ⟨v, d, hg, rfl⟩ := borrowMut_some hb
    have hd := (hs h0 _ hg).live rfl
    simp only at hd
    subst hd
    have e1 := get_set_self hg ⟨v, none, false, false⟩
    rw [deref_eq (w := { w with objs := w.objs.set h0 ⟨v, none, false, false⟩ }) e1] at h
    simp only [bind, Except.bind] at h
    split at h
    · cases h
    · cases h
    rename_i v2 calls he
    rw [write_eq (w := { w with objs := w.objs.set h0 ⟨v, none, false, false⟩ }) e1] at h
    simp only at h
    have hs2 : CbWorld.Sound { w with objs := (w.objs.set h0 ⟨v, none, false, false⟩).set h0 ⟨v2, none, false, false⟩ } :=
      CbWorld.Sound.set (w := { w with objs := w.objs.set h0 ⟨v, none, false, false⟩ })
        (hs.set h0 ⟨v, none, false, false⟩ (by simp [Handle.Sound]) _ _) h0 _ (by simp [Handle.Sound]) _ _
    split at h
    · rename_i e3
      cases h
      exact notifyJobs_safe hf hr _ _ hs2 e3
    rename_i w3 e3
    obtain ⟨es, rel⟩ := notifyJobs_rel hf _ e3
    obtain ⟨g3, eg, m⟩ := rel.moves h0 _ (get_set_self e1 _)
    have k := m.kept (by simp)
    obtain ⟨v3, f3, p3, d3⟩ := g3
    simp only at k
    obtain ⟨rfl, rfl⟩ := k
    obtain ⟨f', eb⟩ := giveBack_eq eg
    rw [eb] at h
    cases h
  | status h0 i =>
    simp only [CbWorld.step] at h
    split at h
    · cases h
    split at h
    · cases h
    rename_i w1 hb
    obtain ⟨v, n, d, hg, rfl⟩ := borrow_some hb
    have hd := (hs h0 _ hg).live rfl
    simp only at hd
    subst hd
    have e1 := get_set_self hg ⟨v, some (n + 1), false, false⟩
    obtain ⟨f', eb⟩ := giveBack_eq (w := { w with objs := w.objs.set h0 ⟨v, some (n + 1), false, false⟩ }) e1
    rw [deref_eq (w := { w with objs := w.objs.set h0 ⟨v, some (n + 1), false, false⟩ }) e1, eb] at h
    cases h
  | search input cats tags order filter =>
    by_cases hu : (∃ ch n d, w.objs[cats]? = some ⟨.cats ch, some n, false, d⟩) ∧ ∃ th n d, w.objs[tags]? = some ⟨.tags th, some n, false, d⟩
    · obtain ⟨⟨ch, n, dc, hc⟩, ⟨th, m, dt, ht⟩⟩ := hu
      obtain ⟨w1, hs1, _, _, _, hm⟩ := search_step (env := env) hf hs (input := input) (order := order) (filter := filter) hc ht
      split at hm
      · rename_i s e
        rw [h] at hm
        cases hm
        exact readFilter_safe hf hr hs1 e
      · obtain ⟨w3, w4, _, _, _, _, hm⟩ := hm
        rw [h] at hm
        split at hm
        · cases hm
        · cases hm
        · split at hm <;> cases hm
    · obtain ⟨w', hw⟩ := search_unusable (env := env) (run := run) (input := input) (order := order) (filter := filter) hu
      rw [hw] at h
      cases h

theorem perform_safe {env : CbEnv} {run : Runner} (hf : run.Fine) (hr : run.Safe) {w : CbWorld} (hs : w.Sound) (c : CbCall) :
    w.perform env run c ≠ .error .useAfterFree := by
  intro h
  unfold CbWorld.perform at h
  simp only [bind, Except.bind] at h
  split at h
  · rename_i e
    cases h
    exact step_safe hf hr (w := w.log (.called c)) hs c e
  · cases h

theorem runCode_safe {env : CbEnv} {run : Runner} (hf : run.Fine) (hr : run.Safe) (s : CbScript) : ∀ {w : CbWorld}, w.Sound →
    runCode env run w s ≠ .error .useAfterFree := by
  induction s with
  | finish out => intro w _ h; cases h
  | call c next ih =>
    intro w hs h
    unfold runCode at h
    simp only [bind, Except.bind] at h
    split at h
    · rename_i e
      cases h
      exact perform_safe hf hr hs c e
    · rename_i x e
      obtain ⟨w1, r1⟩ := x
      obtain ⟨_, rel⟩ := cbPerform_rel hf e
      exact ih _ (rel.sound hs) h

theorem runJob_safe (env : CbEnv) : ∀ depth, (runJob env depth).Safe
  | 0 => fun _ _ _ h => by cases h
  | depth + 1 => fun w j hs h => by
    unfold runJob at h
    simp only [bind, Except.bind] at h
    split at h
    · rename_i e
      cases h
      exact runCode_safe (runJob_fine env depth) (runJob_safe env depth) _ (w := w.log (.started j)) hs e
    · cases h

/-! ## What is read and loaded -/

/-- The pieces of JavaScript that the crate itself started, with how they ended; `level` counts the calls and pieces of code that
are open, and what is started by those pieces of code is left out. -/
def directJobs : Nat → List CbEvent → List (Job × JobEnd)
  | _, [] => []
  | k, .called _ :: es => directJobs (k + 1) es
  | k, .started _ :: es => directJobs (k + 1) es
  | k, .returned _ _ :: es => directJobs (k - 1) es
  | k, .ended j out :: es => if k = 1 then (j, out) :: directJobs 0 es else directJobs (k - 1) es

/-- The files of the calls of `initialize` that returned. -/
def loadsIn (es : List CbEvent) : List Bytes :=
  es.filterMap fun
    | .returned (.initialize file) (.loaded _) => some file
    | _ => none

def NoTrap (es : List CbEvent) : Prop := ∀ c r, .returned c r ∈ es → r ≠ .trapped

theorem loadsIn_append (a b : List CbEvent) : loadsIn (a ++ b) = loadsIn a ++ loadsIn b := List.filterMap_append
theorem NoTrap.left {a b : List CbEvent} (h : NoTrap (a ++ b)) : NoTrap a := fun c r hm => h c r (List.mem_append_left _ hm)
theorem NoTrap.right {a b : List CbEvent} (h : NoTrap (a ++ b)) : NoTrap b := fun c r hm => h c r (List.mem_append_right _ hm)

/-- From `w` to `w'` the events `es` happened, and loaded what they say they loaded. -/
structure Flow (t : Target) (w w' : CbWorld) (es : List CbEvent) : Prop where
  trace : w'.trace = w.trace ++ es
  engine : NoTrap es → w'.engine = (loadsIn es).foldl (fun e file => (e.initialize t file).1) w.engine

theorem Flow.refl (t : Target) (w : CbWorld) : Flow t w w [] := ⟨by simp, fun _ => rfl⟩

theorem Flow.trans {t : Target} {w w' w'' : CbWorld} {a b : List CbEvent} (h1 : Flow t w w' a) (h2 : Flow t w' w'' b) :
    Flow t w w'' (a ++ b) where
  trace := by rw [h2.trace, h1.trace, List.append_assoc]
  engine := by
    intro hn
    rw [h2.engine hn.right, h1.engine hn.left, loadsIn_append, List.foldl_append]

/-- Nothing loaded. -/
theorem Flow.log {t : Target} (w : CbWorld) (e : CbEvent) (he : loadsIn [e] = []) : Flow t w (w.log e) [e] :=
  ⟨rfl, fun _ => by rw [he]; rfl⟩

/-- The events of whole calls, read at any level. -/
def Balanced (es : List CbEvent) : Prop := ∀ k rest, directJobs k (es ++ rest) = directJobs k rest

theorem Balanced.nil : Balanced [] := fun _ _ => rfl
theorem Balanced.append {a b : List CbEvent} (ha : Balanced a) (hb : Balanced b) : Balanced (a ++ b) := fun k rest => by
  rw [List.append_assoc, ha, hb]

/-- The events of whole pieces of code, which ended as in `js`. -/
def JobsOf (es : List CbEvent) (js : List (Job × JobEnd)) : Prop :=
  (∀ rest, directJobs 0 (es ++ rest) = js ++ directJobs 0 rest) ∧ ∀ k rest, directJobs (k + 1) (es ++ rest) = directJobs (k + 1) rest

theorem JobsOf.nil : JobsOf [] [] := ⟨fun _ => rfl, fun _ _ => rfl⟩
theorem JobsOf.append {a b : List CbEvent} {x y : List (Job × JobEnd)} (ha : JobsOf a x) (hb : JobsOf b y) : JobsOf (a ++ b) (x ++ y) :=
  ⟨fun rest => by rw [List.append_assoc, ha.1, hb.1, List.append_assoc], fun k rest => by rw [List.append_assoc, ha.2, hb.2]⟩

theorem JobsOf.eq {es : List CbEvent} {js : List (Job × JobEnd)} (h : JobsOf es js) : directJobs 0 es = js := by
  have := h.1 []
  simpa [directJobs] using this

theorem JobsOf.call {es : List CbEvent} {js : List (Job × JobEnd)} (h : JobsOf es js) (c : CbCall) (r : CbReply) :
    Balanced (.called c :: (es ++ [.returned c r])) := by
  intro k rest
  simp only [List.cons_append, List.append_assoc, List.nil_append, directJobs]
  rw [h.2]
  rfl

theorem Balanced.job {es : List CbEvent} (h : Balanced es) (j : Job) (out : JobEnd) :
    JobsOf (.started j :: (es ++ [.ended j out])) [(j, out)] := by
  constructor
  · intro rest
    simp only [List.cons_append, List.append_assoc, List.nil_append, directJobs]
    rw [h]
    simp [directJobs]
  · intro k rest
    simp only [List.cons_append, List.append_assoc, List.nil_append, directJobs]
    rw [h]
    simp [directJobs]

/-- Pieces of code run with this are whole, and load what they say. -/
def Runner.Flows (t : Target) (run : Runner) : Prop := ∀ w j w' out, run w j = .ok (w', out) →
  ∃ es, Flow t w w' es ∧ JobsOf es [(j, out)]

/-! ### How a filter object is read -/

/-- `from` or `to` could not be read. -/
inductive NoRange (o : JsRef) : List (Job × JobEnd) → Prop
  | noFrom (out : JobEnd) : (∀ v, out ≠ .value v) → NoRange o [(.get o "from".toList, out)]
  | noTo (lo : JsValue) (out : JobEnd) : (∀ v, out ≠ .value v) →
    NoRange o [(.get o "from".toList, .value lo), (.get o "to".toList, out)]

/-- The description of one feature as read. -/
inductive ReadsEntry (feature : Str) (o : JsRef) : List (Job × JobEnd) → Option FeatureFilter → Prop
  | range (lo hi : JsValue) : ReadsEntry feature o [(.get o "from".toList, .value lo), (.get o "to".toList, .value hi)]
      (some ⟨.range lo hi, feature⟩)
  | exact {js : List (Job × JobEnd)} (v : JsValue) : NoRange o js →
      ReadsEntry feature o (js ++ [(.get o "exact".toList, .value v)]) (some ⟨.exact v, feature⟩)
  | nothing {js : List (Job × JobEnd)} (out : JobEnd) : NoRange o js → (∀ v, out ≠ .value v) →
      ReadsEntry feature o (js ++ [(.get o "exact".toList, out)]) none

/-- The descriptions of all features as read; the first that cannot be read ends it. -/
inductive ReadsEntries : List (Str × JsRef) → List (Job × JobEnd) → Option (List FeatureFilter) → Prop
  | nil : ReadsEntries [] [] (some [])
  | stop {feature : Str} {o : JsRef} {rest : List (Str × JsRef)} {js : List (Job × JobEnd)} :
      ReadsEntry feature o js none → ReadsEntries ((feature, o) :: rest) js none
  | cons {feature : Str} {o : JsRef} {rest : List (Str × JsRef)} {js js' : List (Job × JobEnd)} {f : FeatureFilter}
      {fs : Option (List FeatureFilter)} : ReadsEntry feature o js (some f) → ReadsEntries rest js' fs →
      ReadsEntries ((feature, o) :: rest) (js ++ js') (fs.map (f :: ·))

/-- A filter object as read; `none` if listing its entries threw. -/
inductive Reads (o : JsRef) : List (Job × JobEnd) → Option (Option (List FeatureFilter)) → Prop
  | threw (out : JobEnd) : (∀ l, out ≠ .entries l) → Reads o [(.entries o, out)] none
  | entries {l : List (Str × JsRef)} {js : List (Job × JobEnd)} {fs : Option (List FeatureFilter)} :
      ReadsEntries l js fs → Reads o ((.entries o, .entries l) :: js) (some fs)

theorem notifyJobs_flow {t : Target} {run : Runner} (hr : run.Flows t) : ∀ (calls : List Call) {w w' : CbWorld},
    notifyJobs run w calls = .ok w' → ∃ es js, Flow t w w' es ∧ JobsOf es js ∧ js.map (·.1) = calls.map fun c => .observer c.1 c.2
  | [], w, w', h => by
    cases h
    exact ⟨[], [], .refl t w, .nil, rfl⟩
  | (f, b) :: rest, w, w', h => by
    unfold notifyJobs at h
    cases e : run w (.observer f b) with
    | error s => rw [e] at h; cases h
    | ok r =>
      obtain ⟨w1, out⟩ := r
      rw [e] at h
      obtain ⟨es, h1, h2⟩ := hr _ _ _ _ e
      obtain ⟨es', js', h3, h4, h5⟩ := notifyJobs_flow hr rest h
      exact ⟨_, _, h1.trans h3, h2.append h4, by simp [h5]⟩

theorem getValue_flow {t : Target} {run : Runner} (hr : run.Flows t) {w w' : CbWorld} {o : JsRef} {key : Str} {v : Option JsValue}
    (h : getValue run w o key = .ok (w', v)) : ∃ es out, Flow t w w' es ∧ JobsOf es [(.get o key, out)] ∧
      match v with
      | some v => out = .value v
      | none => ∀ v, out ≠ .value v := by
  unfold getValue at h
  cases e : run w (.get o key) with
  | error s => rw [e] at h; cases h
  | ok r =>
    obtain ⟨w1, out⟩ := r
    rw [e] at h
    obtain ⟨es, h1, h2⟩ := hr _ _ _ _ e
    refine ⟨es, out, ?_⟩
    simp only [bind, Except.bind] at h
    split at h
    · cases h
      exact ⟨h1, h2, rfl⟩
    · rename_i hn
      cases h
      exact ⟨h1, h2, fun v hv => hn v hv⟩

theorem readExact_flow {t : Target} {run : Runner} (hr : run.Flows t) {w w' : CbWorld} {feature : Str} {o : JsRef}
    {f : Option FeatureFilter} {js : List (Job × JobEnd)} (hj : NoRange o js) (h : readExact run w feature o = .ok (w', f)) :
    ∃ es js', Flow t w w' es ∧ JobsOf es js' ∧ ReadsEntry feature o (js ++ js') f := by
  unfold readExact at h
  split at h
  · cases h
  · rename_i w1 v e
    cases h
    obtain ⟨es, out, h1, h2, h3⟩ := getValue_flow hr e
    refine ⟨es, _, h1, h2, ?_⟩
    cases v with
    | none => exact .nothing _ hj h3
    | some v =>
      simp only at h3
      subst h3
      exact .exact _ hj

theorem readValue_flow {t : Target} {run : Runner} (hr : run.Flows t) {w w' : CbWorld} {feature : Str} {o : JsRef}
    {f : Option FeatureFilter} (h : readValue run w feature o = .ok (w', f)) :
    ∃ es js, Flow t w w' es ∧ JobsOf es js ∧ ReadsEntry feature o js f := by
  unfold readValue at h
  split at h
  · cases h
  · rename_i w1 e
    obtain ⟨es, out, h1, h2, h3⟩ := getValue_flow hr e
    obtain ⟨es', js', h4, h5, h6⟩ := readExact_flow hr (.noFrom out h3) h
    exact ⟨_, _, h1.trans h4, h2.append h5, h6⟩
  · rename_i w1 lo e
    obtain ⟨es, out, h1, h2, h3⟩ := getValue_flow hr e
    simp only at h3
    subst h3
    split at h
    · cases h
    · rename_i w2 hi e2
      cases h
      obtain ⟨es', out', h4, h5, h6⟩ := getValue_flow hr e2
      simp only at h6
      subst h6
      exact ⟨_, _, h1.trans h4, h2.append h5, .range _ _⟩
    · rename_i w2 e2
      obtain ⟨es', out', h4, h5, h6⟩ := getValue_flow hr e2
      obtain ⟨es'', js', h7, h8, h9⟩ := readExact_flow hr (.noTo lo out' h6) h
      exact ⟨_, _, (h1.trans h4).trans h7, (h2.append h5).append h8, h9⟩

theorem readFeatures_flow {t : Target} {run : Runner} (hr : run.Flows t) : ∀ (l : List (Str × JsRef)) {w w' : CbWorld}
    {fs : Option (List FeatureFilter)}, readFeatures run w l = .ok (w', fs) →
    ∃ es js, Flow t w w' es ∧ JobsOf es js ∧ ReadsEntries l js fs
  | [], w, w', fs, h => by
    cases h
    exact ⟨[], [], .refl t w, .nil, .nil⟩
  | (feature, o) :: rest, w, w', fs, h => by
    unfold readFeatures at h
    split at h
    · cases h
    · rename_i e
      cases h
      obtain ⟨es, js, h1, h2, h3⟩ := readValue_flow hr e
      exact ⟨es, js, h1, h2, .stop h3⟩
    · rename_i e
      obtain ⟨es, js, h1, h2, h3⟩ := readValue_flow hr e
      split at h
      · cases h
      · rename_i e2
        cases h
        obtain ⟨es', js', h4, h5, h6⟩ := readFeatures_flow hr rest e2
        exact ⟨_, _, h1.trans h4, h2.append h5, .cons h3 h6⟩

theorem readFilter_flow {t : Target} {run : Runner} (hr : run.Flows t) {w w' : CbWorld} {o : JsRef}
    {fs : Option (Option (List FeatureFilter))} (h : readFilter run w o = .ok (w', fs)) :
    ∃ es js, Flow t w w' es ∧ JobsOf es js ∧ Reads o js fs := by
  unfold readFilter at h
  cases e : run w (.entries o) with
  | error s => rw [e] at h; cases h
  | ok r =>
    obtain ⟨w1, out⟩ := r
    rw [e] at h
    obtain ⟨es, h1, h2⟩ := hr _ _ _ _ e
    simp only [bind, Except.bind] at h
    split at h
    · split at h
      · cases h
      · rename_i e2
        cases h
        obtain ⟨es', js', h4, h5, h6⟩ := readFeatures_flow hr _ e2
        exact ⟨_, _, h1.trans h4, h2.append h5, .entries h6⟩
    · rename_i hn
      cases h
      exact ⟨es, _, h1, h2, .threw _ fun l hl => hn l hl⟩

/-- A search that does not panic does not change the engine. -/
theorem searchFiltered_ok {mode : PanicMode} {o : HashOrd} {lower : Char → List Char} {e e' : Engine} {input : Str} {cats : CategoryHandler}
    {tags : TagHandler} {order : Option Str} {filters : List FeatureFilter} {r : Option ProductProducer}
    (h : e.searchFiltered mode o lower input cats tags order filters = (e', .ok r)) : e' = e := by
  unfold Engine.searchFiltered at h
  repeat' split at h
  all_goals first | (cases h; rfl) | cases h

theorem step_flow {env : CbEnv} {run : Runner} (hr : run.Flows env.t) {w w' : CbWorld} {c : CbCall} {r : CbReply}
    (h : w.step env run c = .ok (w', r)) : ∃ es js, JobsOf es js ∧ Flow env.t w (w'.log (.returned c r)) (es ++ [.returned c r]) := by
  have quiet : ∀ {w2 w3 : CbWorld} {es : List CbEvent}, Flow env.t w w2 es → w3.trace = w2.trace → w3.engine = w2.engine →
      (∀ f b, c = .initialize f → r ≠ .loaded b) → Flow env.t w (w3.log (.returned c r)) (es ++ [.returned c r]) := by
    intro w2 w3 es hw ht he hn
    refine hw.trans ⟨by simp [CbWorld.log, ht], fun _ => ?_⟩
    have : loadsIn [.returned c r] = [] := by
      simp only [loadsIn, List.filterMap_cons, List.filterMap_nil]
      split
      · rfl
      · rename_i f hm
        exfalso
        split at hm
        · rename_i file b _
          rename_i e
          cases e
          exact hn _ _ rfl rfl
        · cases hm
    rw [this]
    exact he
  have trapped : ∀ {w2 w3 : CbWorld} {es : List CbEvent}, Flow env.t w w2 es → w3.trace = w2.trace → r = .trapped →
      Flow env.t w (w3.log (.returned c r)) (es ++ [.returned c r]) := by
    intro w2 w3 es hw ht hrt
    refine ⟨by simp [CbWorld.log, ht, hw.trace], fun hn => ?_⟩
    exact absurd hrt (hn c r (by simp))
  have stay : ∀ {w3 : CbWorld}, w3.trace = w.trace → w3.engine = w.engine → (∀ f b, c = .initialize f → r ≠ .loaded b) →
      ∃ es js, JobsOf es js ∧ Flow env.t w (w3.log (.returned c r)) (es ++ [.returned c r]) := fun h1 h2 h3 =>
    ⟨[], [], .nil, quiet (.refl _ w) h1 h2 h3⟩
  cases c with
  | «initialize» file =>
    simp only [CbWorld.step] at h
    split at h
    · rename_i e b hi
      cases h
      refine ⟨[], [], .nil, rfl, fun _ => ?_⟩
      show e = ((w.engine.initialize env.t file).1)
      rw [hi]
    · cases h
      exact ⟨[], [], .nil, trapped (.refl _ w) rfl rfl⟩
  | getCategories => simp only [CbWorld.step] at h; split at h <;> cases h <;> exact stay rfl rfl nofun
  | getTags => simp only [CbWorld.step] at h; split at h <;> cases h <;> exact stay rfl rfl nofun
  | editFreed h0 =>
    simp only [CbWorld.step] at h
    split at h
    · cases h
      exact stay rfl rfl nofun
    · rename_i hb
      cases h
      obtain ⟨_, _, _, rfl⟩ := borrowMut_some hb
      exact stay rfl rfl nofun
  | statusFreed h0 =>
    simp only [CbWorld.step] at h
    split at h
    · cases h
      exact stay rfl rfl nofun
    · rename_i hb
      cases h
      obtain ⟨_, _, _, _, rfl⟩ := borrow_some hb
      exact stay rfl rfl nofun
  | free h0 => simp only [CbWorld.step] at h; split at h <;> cases h <;> exact stay rfl rfl nofun
  | edit h0 e =>
    simp only [CbWorld.step] at h
    split at h
    · cases h
      exact stay rfl rfl nofun
    split at h
    · cases h
      exact stay rfl rfl nofun
    rename_i w1 hb
    obtain ⟨v, d, hg, rfl⟩ := borrowMut_some hb
    simp only [bind, Except.bind] at h
    split at h
    · cases h
    rename_i v1 hd
    split at h
    · cases h
      exact stay rfl rfl nofun
    · cases h
      exact stay rfl rfl nofun
    rename_i v2 calls he
    split at h
    · cases h
    rename_i w2 hw
    obtain ⟨_, _, _, _, rfl⟩ := write_ok hw
    split at h
    · cases h
    rename_i w3 hn
    split at h
    · cases h
    rename_i w4 hgb
    cases h
    obtain ⟨_, _, _, _, rfl⟩ := giveBack_ok hgb
    obtain ⟨es, js, h1, h2, _⟩ := notifyJobs_flow hr _ hn
    exact ⟨es, js, h2, quiet (Flow.mk (w := w) (w' := w3) h1.trace h1.engine) rfl rfl nofun⟩
  | status h0 i =>
    simp only [CbWorld.step] at h
    split at h
    · cases h
      exact stay rfl rfl nofun
    split at h
    · cases h
      exact stay rfl rfl nofun
    rename_i w1 hb
    obtain ⟨_, _, _, _, rfl⟩ := borrow_some hb
    simp only [bind, Except.bind] at h
    split at h
    · cases h
    split at h
    · cases h
    rename_i hgb
    cases h
    obtain ⟨_, _, _, _, rfl⟩ := giveBack_ok hgb
    exact stay rfl rfl nofun
  | search input cats tags order filter =>
    simp only [CbWorld.step] at h
    split at h
    · split at h
      · cases h
        exact stay rfl rfl nofun
      rename_i w1 hb
      obtain ⟨_, _, _, _, rfl⟩ := borrow_some hb
      split at h
      · cases h
        exact stay rfl rfl nofun
      rename_i w2 hb2
      obtain ⟨_, _, _, _, rfl⟩ := borrow_some hb2
      simp only [bind, Except.bind] at h
      split at h
      · cases h
      rename_i x hread
      obtain ⟨w3, read⟩ := x
      obtain ⟨es, js, h1, h2, _⟩ := readFilter_flow hr hread
      have h1 : Flow env.t w w3 es := ⟨h1.trace, h1.engine⟩
      simp only at h
      split at h
      · cases h
        exact ⟨es, js, h2, quiet h1 rfl rfl nofun⟩
      · split at h
        · cases h
        rename_i hg1
        obtain ⟨_, _, _, _, rfl⟩ := giveBack_ok hg1
        split at h
        · cases h
        rename_i hg2
        cases h
        obtain ⟨_, _, _, _, rfl⟩ := giveBack_ok hg2
        exact ⟨es, js, h2, quiet h1 rfl rfl nofun⟩
      · unfold CbWorld.searchRead at h
        split at h
        · split at h
          · cases h
            exact ⟨es, js, h2, trapped h1 rfl rfl⟩
          · rename_i e r' hsearch
            have := searchFiltered_ok hsearch
            subst this
            simp only [bind, Except.bind] at h
            split at h
            · cases h
            rename_i hg1
            obtain ⟨_, _, _, _, rfl⟩ := giveBack_ok hg1
            split at h
            · cases h
            rename_i hg2
            cases h
            obtain ⟨_, _, _, _, rfl⟩ := giveBack_ok hg2
            exact ⟨es, js, h2, quiet h1 rfl rfl nofun⟩
        · cases h
    · cases h
      exact stay rfl rfl nofun

theorem cbPerform_flow {env : CbEnv} {run : Runner} (hr : run.Flows env.t) {w w' : CbWorld} {c : CbCall} {r : CbReply}
    (h : w.perform env run c = .ok (w', r)) : ∃ es, Flow env.t w w' es ∧ Balanced es := by
  unfold CbWorld.perform at h
  simp only [bind, Except.bind] at h
  split at h
  · cases h
  · rename_i x e
    obtain ⟨w1, r1⟩ := x
    cases h
    obtain ⟨es, js, h1, h2⟩ := step_flow hr e
    exact ⟨_, (Flow.log w (.called c) rfl).trans h2, h1.call c _⟩

theorem runCode_flow {env : CbEnv} {run : Runner} (hr : run.Flows env.t) (s : CbScript) : ∀ {w w' : CbWorld} {out : JobEnd},
    runCode env run w s = .ok (w', out) → ∃ es, Flow env.t w w' es ∧ Balanced es := by
  induction s with
  | finish out =>
    intro w w' out h
    cases h
    exact ⟨[], .refl _ _, .nil⟩
  | call c next ih =>
    intro w w' out h
    unfold runCode at h
    simp only [bind, Except.bind] at h
    split at h
    · cases h
    · rename_i x e
      obtain ⟨w1, r1⟩ := x
      obtain ⟨es, h1, h2⟩ := cbPerform_flow hr e
      obtain ⟨es', h3, h4⟩ := ih _ h
      exact ⟨_, h1.trans h3, h2.append h4⟩

theorem runJob_flows (env : CbEnv) : ∀ depth, (runJob env depth).Flows env.t
  | 0 => fun _ _ _ _ h => by cases h
  | depth + 1 => fun w j w' out h => by
    unfold runJob at h
    simp only [bind, Except.bind] at h
    split at h
    · cases h
    · rename_i x e
      obtain ⟨w1, out1⟩ := x
      cases h
      obtain ⟨es, h1, h2⟩ := runCode_flow (runJob_flows env depth) _ e
      exact ⟨_, (Flow.log w (.started j) rfl).trans (h1.trans (Flow.log w1 (.ended j _) rfl)), h2.job j _⟩

end Idx
