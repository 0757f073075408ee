import Verif.Lemmas.CallbackFlow
import Verif.Props.Reentrant
/-!
# C92 — JavaScript that runs inside the crate

Observers run inside `toggle`, getters and proxy traps inside `search`; all of them can call the crate again, and JavaScript can
free objects at any moment.
-/
namespace Idx

/-- The worlds that JavaScript code can see: between calls, and inside the calls that run code. -/
inductive CbReach (env : CbEnv) : CbWorld → Prop
  | start (e : Engine) : CbReach env (.start e)
  /-- after any program -/
  | ran {w w' : CbWorld} {s : CbScript} {out : JobEnd} (depth : Nat) : CbReach env w →
      runCode env (runJob env depth) w s = .ok (w', out) → CbReach env w'
  /-- inside a `&mut self` method, before its observers are called -/
  | editing {w : CbWorld} {h : Nat} {v v' : Obj} {d : Bool} {e : Edit} {calls : List Call} : CbReach env w →
      w.objs[h]? = some ⟨v, some 0, false, d⟩ → v.edit e = some (.ok (v', calls)) →
      CbReach env { w.log (.called (.edit h e)) with objs := w.objs.set h ⟨v', none, false, d⟩ }
  /-- inside `search`, before the filter object is read -/
  | reading {w : CbWorld} {input : Str} {cats tags : Nat} {order : Option Str} {filter : JsRef} {ch : CategoryHandler} {th : TagHandler}
      {n m : Nat} {dc dt : Bool} : CbReach env w →
      w.objs[cats]? = some ⟨.cats ch, some n, false, dc⟩ → w.objs[tags]? = some ⟨.tags th, some m, false, dt⟩ →
      CbReach env { w.log (.called (.search input cats tags order filter)) with
        objs := (w.objs.set cats ⟨.cats ch, some (n + 1), false, dc⟩).set tags ⟨.tags th, some (m + 1), false, dt⟩ }
  /-- when the crate has run a piece of code -/
  | job {w w' : CbWorld} {j : Job} {out : JobEnd} (depth : Nat) : CbReach env w → runJob env depth w j = .ok (w', out) → CbReach env w'
  /-- when the crate starts a piece of code -/
  | inside {w : CbWorld} (j : Job) : CbReach env w → CbReach env (w.log (.started j))

structure CbInv (w : CbWorld) : Prop where
  sound : w.Sound
  value : ∀ (h : Nat) g, w.objs[h]? = some g → ∃ v : Obj, v.Fresh ∧ (g.flag ≠ none → v.after (acceptedOn h w.trace) = some g.value)
  absent : ∀ h : Nat, w.objs[h]? = none → acceptedOn h w.trace = []

theorem CbRel.old {w w' : CbWorld} {es : List CbEvent} (hr : CbRel w w' es) {h : Nat} (e : w'.objs[h]? = none) : w.objs[h]? = none := by
  cases e0 : w.objs[h]? with
  | none => rfl
  | some g =>
    obtain ⟨g', e', _⟩ := hr.moves h g e0
    rw [e] at e'
    cases e'

theorem CbInv.rel {w w' : CbWorld} {es : List CbEvent} (hi : CbInv w) (hr : CbRel w w' es) : CbInv w' where
  sound := hr.sound hi.sound
  value := by
    intro h g' e'
    cases e : w.objs[h]? with
    | none =>
      obtain ⟨v, hv, m⟩ := hr.fresh h g' e e'
      refine ⟨v, hv, fun hf => ?_⟩
      rw [hr.trace, acceptedOn_append, hi.absent h e]
      exact m.value hf
    | some g =>
      obtain ⟨g2, e2, m⟩ := hr.moves h g e
      rw [e'] at e2
      cases e2
      obtain ⟨v, hv, ha⟩ := hi.value h g e
      refine ⟨v, hv, fun hf => ?_⟩
      rw [hr.trace, acceptedOn_append, Obj.after_append, ha fun hn => hf (m.busy hn)]
      exact m.value hf
  absent := by
    intro h e'
    rw [hr.trace, acceptedOn_append, hi.absent h (hr.old e'), hr.absent h e']
    rfl

theorem CbInv.set {w : CbWorld} (hi : CbInv w) {h : Nat} {g g' : Handle} (hg : w.objs[h]? = some g) (hs : g'.Sound)
    (hv : g'.flag ≠ none → g.flag ≠ none ∧ g'.value = g.value) (e : CbEvent) (he : ∀ c r, e ≠ .returned c r) :
    CbInv { w.log e with objs := w.objs.set h g' } := by
  have ht : ∀ x : Nat, acceptedOn x (w.log e).trace = acceptedOn x w.trace := by
    intro x
    show acceptedOn x (w.trace ++ [e]) = _
    rw [acceptedOn_append]
    cases e with
    | returned c r => exact absurd rfl (he c r)
    | _ => simp [acceptedOn, CbEvent.editOn]
  refine ⟨hi.sound.set h g' hs _ _, fun x gx ex => ?_, fun x ex => ?_⟩
  · simp only [List.getElem?_set] at ex
    split at ex
    · rename_i hh
      subst hh
      split at ex
      · cases ex
        obtain ⟨v, hv', ha⟩ := hi.value h g hg
        refine ⟨v, hv', fun hf => ?_⟩
        obtain ⟨h1, h2⟩ := hv hf
        simp only [ht]
        rw [ha h1, h2]
      · cases ex
    · obtain ⟨v, hv', ha⟩ := hi.value x gx ex
      exact ⟨v, hv', fun hf => by simp only [ht]; exact ha hf⟩
  · simp only [List.getElem?_set] at ex
    simp only [ht]
    split at ex
    · rename_i hh
      subst hh
      split at ex
      · cases ex
      · exact absurd (List.getElem?_eq_some_iff.1 hg).1 ‹_›
    · exact hi.absent x ex

theorem CbReach.inv {env : CbEnv} {w : CbWorld} (hr : CbReach env w) : CbInv w := by
  induction hr with
  | start e => exact ⟨fun h g e => by simp [CbWorld.start] at e, fun h g e => by simp [CbWorld.start] at e, fun _ _ => rfl⟩
  | ran depth _ hs ih =>
    obtain ⟨es, r⟩ := runCode_rel (runJob_fine env depth) _ hs
    exact ih.rel r
  | @editing w h v v' d e calls _ hg _ ih =>
    refine ih.set hg (fun hd => ?_) (by simp) _ nofun
    have := ih.sound h _ hg hd
    cases this.1
  | @reading w input cats tags order filter ch th n m dc dt _ hc ht ih =>
    have hne : cats ≠ tags := by
      rintro rfl
      rw [hc] at ht
      cases ht
    have h1 := ih.set (g' := ⟨.cats ch, some (n + 1), false, dc⟩) hc (fun hd => by cases (ih.sound cats _ hc hd).1) (by simp)
      (.called (.search input cats tags order filter)) nofun
    have ht1 : (w.objs.set cats ⟨.cats ch, some (n + 1), false, dc⟩)[tags]? = some ⟨.tags th, some m, false, dt⟩ := by
      rw [List.getElem?_set_ne hne]
      exact ht
    have h2 := h1.set (g' := ⟨.tags th, some (m + 1), false, dt⟩) ht1 (fun hd => by cases (ih.sound tags _ ht hd).1) (by simp)
      (.started (.entries filter)) nofun
    have last : ∀ h : Nat, acceptedOn h (w.trace ++ [.called (.search input cats tags order filter)]) =
        acceptedOn h ((w.trace ++ [.called (.search input cats tags order filter)]) ++ [.started (.entries filter)]) := by
      intro h
      rw [acceptedOn_append h (_ ++ _)]
      simp [acceptedOn, CbEvent.editOn]
    refine ⟨h2.sound, fun h g e => ?_, fun h e => ?_⟩
    · obtain ⟨v, hv, ha⟩ := h2.value h g e
      refine ⟨v, hv, fun hf => ?_⟩
      rw [← ha hf]
      exact congrArg _ (last h)
    · rw [← h2.absent h e]
      exact last h
  | job depth _ hs ih =>
    obtain ⟨es, r⟩ := runJob_fine env depth _ _ _ _ hs
    exact ih.rel r
  | inside j _ ih => exact ih.rel (.logged _ _ nofun)

/-- No memory is used after it was given back, whatever is freed when. -/
theorem C92_safe {env : CbEnv} {w : CbWorld} (hr : CbReach env w) (depth : Nat) (s : CbScript) :
    runCode env (runJob env depth) w s ≠ .error .useAfterFree :=
  runCode_safe (runJob_fine env depth) (runJob_safe env depth) s hr.inv.sound

/-- While an object is in use by a `&mut self` method, or after one was given a freed option or tag or trapped: nothing changes it,
and every call that names it is refused. -/
theorem C92_busy {env : CbEnv} {depth : Nat} {w w' : CbWorld} {s : CbScript} {out : JobEnd} {h : Nat} {g : Handle}
    (hg : w.objs[h]? = some g) (hb : g.flag = none) (hs : runCode env (runJob env depth) w s = .ok (w', out)) :
    ∃ g' es, w'.objs[h]? = some g' ∧ w'.trace = w.trace ++ es ∧ g'.flag = none ∧ g'.value = g.value ∧ g'.dropped = g.dropped ∧
      ∀ c r, .returned c r ∈ es → c.Uses h → r = .refused := by
  obtain ⟨es, rel⟩ := runCode_rel (runJob_fine env depth) _ hs
  obtain ⟨g', e', m⟩ := rel.moves h g hg
  obtain ⟨k1, k2⟩ := m.kept (by simp [hb])
  exact ⟨g', es, e', rel.trace, m.busy hb, k1, k2, m.refused (.inl hb)⟩

/-- While it is an argument of a search, or was one of a search that did not end: nothing changes it or frees it, and every call
that would is refused. -/
theorem C92_shared {env : CbEnv} {depth : Nat} {w w' : CbWorld} {s : CbScript} {out : JobEnd} {h n : Nat} {g : Handle}
    (hg : w.objs[h]? = some g) (hb : g.flag = some (n + 1)) (hs : runCode env (runJob env depth) w s = .ok (w', out)) :
    ∃ g' es m, w'.objs[h]? = some g' ∧ w'.trace = w.trace ++ es ∧ g'.flag = some m ∧ n + 1 ≤ m ∧ g'.value = g.value ∧
      g'.dropped = g.dropped ∧ ∀ c r, .returned c r ∈ es → c.Wants h → r = .refused := by
  obtain ⟨es, rel⟩ := runCode_rel (runJob_fine env depth) _ hs
  obtain ⟨g', e', m⟩ := rel.moves h g hg
  obtain ⟨k1, k2⟩ := m.kept (by simp [hb])
  obtain ⟨k, hk, hle⟩ := m.shared n hb
  exact ⟨g', es, k, e', rel.trace, hk, hle, k1, k2, m.sharedRefused n hb⟩

/-- After `free` every call that names the object is refused, also if `free` was. -/
theorem C92_freed {env : CbEnv} {depth : Nat} {w w' : CbWorld} {s : CbScript} {out : JobEnd} {h : Nat} {g : Handle}
    (hg : w.objs[h]? = some g) (hf : g.forgotten = true) (hs : runCode env (runJob env depth) w s = .ok (w', out)) :
    ∃ g' es, w'.objs[h]? = some g' ∧ w'.trace = w.trace ++ es ∧ g'.forgotten = true ∧
      ∀ c r, .returned c r ∈ es → c.Uses h → r = .refused := by
  obtain ⟨es, rel⟩ := runCode_rel (runJob_fine env depth) _ hs
  obtain ⟨g', e', m⟩ := rel.moves h g hg
  exact ⟨g', es, e', rel.trace, m.forgotten hf, m.refused (.inr hf)⟩

/-- `free` succeeds exactly on an object that nobody uses and that was not freed; afterwards JavaScript has forgotten it in any case. -/
theorem C92_free {env : CbEnv} {run : Runner} {w : CbWorld} {h : Nat} {g : Handle} (hg : w.objs[h]? = some g) :
    ∃ w' r g', w.perform env run (.free h) = .ok (w', r) ∧ w'.objs[h]? = some g' ∧ g'.forgotten = true ∧ g'.value = g.value ∧
      (r = .done ∨ r = .refused) ∧ (r = .done ↔ g.flag = some 0 ∧ g.forgotten = false) ∧ (r = .refused → g'.dropped = g.dropped) := by
  obtain ⟨v, f, p, d⟩ := g
  have log_objs : (w.log (.called (.free h))).objs = w.objs := rfl
  have go : ∀ (f : Option Nat) (p : Bool), w.objs[h]? = some ⟨v, f, p, d⟩ → ¬(f = some 0 ∧ p = false) →
      (w.log (.called (.free h))).step env run (.free h) =
        .ok ({ w.log (.called (.free h)) with objs := w.objs.set h ⟨v, f, true, d⟩ }, .refused) := by
    intro f p hg hn
    simp only [CbWorld.step, log_objs, hg]
    match f, p, hn with
    | none, _, _ => rfl
    | some (n + 1), _, _ => rfl
    | some 0, true, _ => rfl
    | some 0, false, hn => exact absurd ⟨rfl, rfl⟩ hn
  by_cases hn : f = some 0 ∧ p = false
  · obtain ⟨rfl, rfl⟩ := hn
    have hs : (w.log (.called (.free h))).step env run (.free h) =
        .ok ({ w.log (.called (.free h)) with objs := w.objs.set h ⟨v, some 0, true, true⟩ }, .done) := by
      simp only [CbWorld.step, log_objs, hg]
    refine ⟨_, _, ⟨v, some 0, true, true⟩, by rw [CbWorld.perform, hs]; exact rfl, get_set_self hg _, rfl, rfl, .inl rfl, ?_, nofun⟩
    simp
  · refine ⟨_, _, ⟨v, f, true, d⟩, by rw [CbWorld.perform, go f p hg hn]; exact rfl, get_set_self hg _, rfl, rfl, .inr rfl, ?_, fun _ => rfl⟩
    simp only [reduceCtorEq, false_iff]
    exact hn

/-- A handler that is not inside one of its own methods is a new one after the accepted calls on it. -/
theorem C92_history {env : CbEnv} {w : CbWorld} (hr : CbReach env w) {h : Nat} {g : Handle} (hg : w.objs[h]? = some g)
    (hf : g.flag ≠ none) : ∃ v : Obj, v.Fresh ∧ v.after (acceptedOn h w.trace) = some g.value := by
  obtain ⟨v, hv, ha⟩ := hr.inv.value h g hg
  exact ⟨v, hv, ha hf⟩

theorem C92_categories {env : CbEnv} {w : CbWorld} (hr : CbReach env w) {h n : Nat} {ch : CategoryHandler} {p d : Bool}
    (hg : w.objs[h]? = some ⟨.cats ch, some n, p, d⟩) :
    ∃ (c : Classic) (ops : List CatOp), acceptedOn h w.trace = ops.map CatOp.toEdit ∧ ch = ops.foldl CatOp.run (.new c) := by
  obtain ⟨v, ⟨c, hv⟩, ha⟩ := C92_history hr hg nofun
  rcases hv with rfl | rfl
  · obtain ⟨ops, h1, h2⟩ := after_cats _ ha
    cases h2
    exact ⟨c, ops, h1, rfl⟩
  · obtain ⟨ops, h', _, _, h3⟩ := after_tags _ ha
    cases h3

theorem C92_tags {env : CbEnv} {w : CbWorld} (hr : CbReach env w) {h n : Nat} {th : TagHandler} {p d : Bool}
    (hg : w.objs[h]? = some ⟨.tags th, some n, p, d⟩) :
    ∃ (c : Classic) (ops : List TagOp), acceptedOn h w.trace = ops.map TagOp.toEdit ∧
      ops.foldlM TagOp.run (TagHandler.new c) = .ok th := by
  obtain ⟨v, ⟨c, hv⟩, ha⟩ := C92_history hr hg nofun
  rcases hv with rfl | rfl
  · obtain ⟨ops, h1, h2⟩ := after_cats _ ha
    cases h2
  · obtain ⟨ops, h', h1, h2, h3⟩ := after_tags _ ha
    cases h3
    exact ⟨c, ops, h1, h2⟩

/-- If nothing trapped, no exception passed through the crate, no freed option, tag or handler was passed and no search was refused,
then every object is borrowed as it was before; in particular a new one is free. -/
theorem C92_clean {env : CbEnv} {depth : Nat} {w w' : CbWorld} {s : CbScript} {out : JobEnd}
    (hs : runCode env (runJob env depth) w s = .ok (w', out)) :
    ∃ es, w'.trace = w.trace ++ es ∧ (Civil es → (∀ (h : Nat) g, w.objs[h]? = some g → ∃ g', w'.objs[h]? = some g' ∧ g'.flag = g.flag) ∧
      ∀ (h : Nat) g', w.objs[h]? = none → w'.objs[h]? = some g' → g'.flag = some 0) := by
  obtain ⟨es, rel⟩ := runCode_rel (runJob_fine env depth) _ hs
  refine ⟨es, rel.trace, fun hc => ⟨fun h g e => ?_, fun h g' e e' => ?_⟩⟩
  · obtain ⟨g', e', m⟩ := rel.moves h g e
    exact ⟨g', e', m.clean hc⟩
  · obtain ⟨v, _, m⟩ := rel.fresh h g' e e'
    exact m.clean hc

/-- If nothing trapped, the loaded index is the one of the last `initialize` that returned: reading filters and calling observers
load nothing by themselves. -/
theorem C92_engine {env : CbEnv} {depth : Nat} {w w' : CbWorld} {s : CbScript} {out : JobEnd}
    (hs : runCode env (runJob env depth) w s = .ok (w', out)) :
    ∃ es, w'.trace = w.trace ++ es ∧ (NoTrap es → w'.engine = (loadsIn es).foldl (fun e file => (e.initialize env.t file).1) w.engine) := by
  obtain ⟨es, h, _⟩ := runCode_flow (runJob_flows env depth) _ hs
  exact ⟨es, h.trace, h.engine⟩

/-! ## Searching -/

/-- A search is refused at once unless it is given a category handler and a tag handler that were not freed and are not inside one
of their own methods. -/
theorem C92_refused {env : CbEnv} {run : Runner} {w : CbWorld} {input : Str} {cats tags : Nat} {order : Option Str} {filter : JsRef}
    (hn : ¬((∃ ch n d, w.objs[cats]? = some ⟨.cats ch, some n, false, d⟩) ∧ ∃ th n d, w.objs[tags]? = some ⟨.tags th, some n, false, d⟩)) :
    ∃ w', w.perform env run (.search input cats tags order filter) = .ok (w', .refused) ∧
      w'.trace = w.trace ++ [.called (.search input cats tags order filter), .returned (.search input cats tags order filter) .refused] := by
  obtain ⟨w1, h1⟩ := search_unusable (env := env) (run := run) (w := w.log (.called (.search input cats tags order filter)))
    (input := input) (order := order) (filter := filter) hn
  refine ⟨_, by rw [CbWorld.perform, h1]; rfl, ?_⟩
  have ht : w1.trace = w.trace ++ [.called (.search input cats tags order filter)] := by
    simp only [CbWorld.step] at h1
    split at h1
    · rename_i ch th hc ht
      split at h1
      · cases h1
        rfl
      rename_i w2 hb
      obtain ⟨v1, n1, d1, e1, rfl⟩ := borrow_some hb
      split at h1
      · cases h1
        rfl
      rename_i w3 hb2
      exfalso
      obtain ⟨v2, n2, d2, e2, _⟩ := borrow_some hb2
      simp only [CbWorld.kept, Option.map_eq_some_iff] at hc ht
      obtain ⟨gc, ec, hc⟩ := hc
      obtain ⟨gt, et, ht⟩ := ht
      have hne : cats ≠ tags := by
        rintro rfl
        rw [ec] at et
        cases et
        rw [hc] at ht
        cases ht
      have e2 : ((w.log (.called (.search input cats tags order filter))).objs.set cats _)[tags]? = _ := e2
      rw [List.getElem?_set_ne hne, et] at e2
      cases e2
      rw [ec] at e1
      cases e1
      simp only at hc ht
      subst hc ht
      exact hn ⟨⟨_, _, _, ec⟩, ⟨_, _, _, et⟩⟩
    · cases h1
      rfl
  simp [CbWorld.log, ht]

/-- Otherwise it reads the filter object, whatever that runs, and then answers for the index that is loaded when reading is over, with
the handlers as they were when it was called. -/
theorem C92_search {env : CbEnv} {depth : Nat} {w w' : CbWorld} (hs : w.Sound) {input : Str} {cats tags : Nat} {order : Option Str}
    {filter : JsRef} {r : CbReply} {ch : CategoryHandler} {th : TagHandler} {n m : Nat} {dc dt : Bool}
    (hc : w.objs[cats]? = some ⟨.cats ch, some n, false, dc⟩) (ht : w.objs[tags]? = some ⟨.tags th, some m, false, dt⟩)
    (h : w.perform env (runJob env depth) (.search input cats tags order filter) = .ok (w', r)) :
    ∃ (es : List CbEvent) (e : Engine) (read : Option (Option (List FeatureFilter))),
      w'.trace = w.trace ++ .called (.search input cats tags order filter) ::
        (es ++ [.returned (.search input cats tags order filter) r]) ∧
      Reads filter (directJobs 0 es) read ∧
      (NoTrap es → e = (loadsIn es).foldl (fun e file => (e.initialize env.t file).1) w.engine) ∧
      match read with
      | none => r = .threw ∧ w'.engine = e
      | some none => r = .results none ∧ w'.engine = e
      | some (some filters) =>
        match e.searchFiltered .trap (env.order (w.trace ++ .called (.search input cats tags order filter) :: es)) env.lower
            input ch th order filters with
        | (e', .ok res) => r = .results res ∧ w'.engine = e'
        | (e', .error _) => r = .trapped ∧ w'.engine = e' := by
  obtain ⟨w1, hs1, t1, g1, o1, hm⟩ := search_step (env := env) (runJob_fine env depth)
    (w := w.log (.called (.search input cats tags order filter))) hs (input := input) (order := order) (filter := filter) hc ht
  unfold CbWorld.perform at h
  split at hm
  · rw [hm] at h
    cases h
  · rename_i w2 read hread
    obtain ⟨w3, w4, _, _, e4, t4, hm⟩ := hm
    obtain ⟨es, js, hflow, hjobs, hreads⟩ := readFilter_flow (runJob_flows env depth) hread
    rw [← hjobs.eq] at hreads
    have tr : w2.trace = w.trace ++ .called (.search input cats tags order filter) :: es := by
      rw [hflow.trace, t1]
      simp [CbWorld.log]
    have en := hflow.engine
    rw [g1] at en
    rw [hm] at h
    refine ⟨es, w2.engine, read, ?_, hreads, en, ?_⟩
    · cases read with
      | none => cases h; simp [CbWorld.log, tr]
      | some read =>
        cases read with
        | none => cases h; simp [CbWorld.log, t4, tr]
        | some filters =>
          simp only at h
          split at h <;> cases h <;> simp [CbWorld.log, t4, tr]
    · cases read with
      | none => cases h; exact ⟨rfl, rfl⟩
      | some read =>
        cases read with
        | none => cases h; exact ⟨rfl, e4⟩
        | some filters =>
          simp only at h ⊢
          rw [tr] at h
          split at h
          · rename_i hsearch
            rw [hsearch]
            cases h
            exact ⟨rfl, rfl⟩
          · rename_i hsearch
            rw [hsearch]
            cases h
            exact ⟨rfl, rfl⟩

/-- What a search on plain data does is what the engine does (Model/Engine.lean). -/
theorem search_eq_filtered (mode : PanicMode) (o : HashOrd) (lower : Char → List Char) (e : Engine) (input : Str) (cats : CategoryHandler)
    (tags : TagHandler) (order : Option Str) (filter : List (Str × JsValue)) :
    e.search mode o lower input cats tags order filter = match parseFilters filter with
      | none => (e, .ok none)
      | some filters => e.searchFiltered mode o lower input cats tags order filters := by
  unfold Engine.search Engine.searchFiltered
  cases parseFilters filter <;> rfl

/-- The pieces of code read plain data: object `o` has the value `vals o`. -/
def ReadsPlain (vals : JsRef → JsValue) (js : List (Job × JobEnd)) : Prop :=
  ∀ o key out, (Job.get o key, out) ∈ js → match reflectGet (vals o) key with
    | some v => out = .value v
    | none => out = .threw

theorem plain_some {vals : JsRef → JsValue} {js : List (Job × JobEnd)} (hp : ReadsPlain vals js) {o : JsRef} {key : Str} {v : JsValue}
    (hm : (Job.get o key, JobEnd.value v) ∈ js) : reflectGet (vals o) key = some v := by
  have := hp _ _ _ hm
  split at this
  · rename_i e
    cases this
    exact e
  · cases this

theorem plain_none {vals : JsRef → JsValue} {js : List (Job × JobEnd)} (hp : ReadsPlain vals js) {o : JsRef} {key : Str} {out : JobEnd}
    (hm : (Job.get o key, out) ∈ js) (hn : ∀ v, out ≠ .value v) : reflectGet (vals o) key = none := by
  have := hp _ _ _ hm
  split at this
  · exact absurd this (hn _)
  · assumption

theorem plain_noRange {vals : JsRef → JsValue} {js : List (Job × JobEnd)} {o : JsRef} (h : NoRange o js) (hp : ReadsPlain vals js) :
    reflectGet (vals o) "from".toList = none ∨ reflectGet (vals o) "to".toList = none := by
  cases h with
  | noFrom out hn => exact .inl (plain_none hp (by simp) hn)
  | noTo lo out hn => exact .inr (plain_none hp (by simp) hn)

theorem parseFilter_noRange {feature : Str} {v : JsValue} (h : reflectGet v "from".toList = none ∨ reflectGet v "to".toList = none) :
    parseFilter feature v = (reflectGet v "exact".toList).map fun x => ⟨.exact x, feature⟩ := by
  unfold parseFilter
  rcases h with h | h
  · rw [h]
    cases reflectGet v "exact".toList <;> rfl
  · rw [h]
    cases reflectGet v "from".toList <;> cases reflectGet v "exact".toList <;> rfl

theorem plain_entry {vals : JsRef → JsValue} {feature : Str} {o : JsRef} {js : List (Job × JobEnd)} {f : Option FeatureFilter}
    (h : ReadsEntry feature o js f) (hp : ReadsPlain vals js) : parseFilter feature (vals o) = f := by
  cases h with
  | range lo hi =>
    have h1 := plain_some hp (o := o) (key := "from".toList) (v := lo) (by simp)
    have h2 := plain_some hp (o := o) (key := "to".toList) (v := hi) (by simp)
    unfold parseFilter
    rw [h1, h2]
  | @exact js v hn =>
    rw [parseFilter_noRange (plain_noRange hn fun a b c hm => hp a b c (List.mem_append_left _ hm)), plain_some hp (v := v) (by simp)]
    rfl
  | @nothing js out hn ho =>
    rw [parseFilter_noRange (plain_noRange hn fun a b c hm => hp a b c (List.mem_append_left _ hm)), plain_none hp (out := out) (by simp) ho]
    rfl

theorem plain_entries {vals : JsRef → JsValue} {l : List (Str × JsRef)} {js : List (Job × JobEnd)} {fs : Option (List FeatureFilter)}
    (h : ReadsEntries l js fs) (hp : ReadsPlain vals js) : parseFilters (l.map fun e => (e.1, vals e.2)) = fs := by
  induction h with
  | nil => rfl
  | stop he =>
    simp only [List.map_cons, parseFilters, plain_entry he hp]
  | cons he _ ih =>
    simp only [List.map_cons, parseFilters, plain_entry he fun a b c hm => hp a b c (List.mem_append_left _ hm),
      ih fun a b c hm => hp a b c (List.mem_append_right _ hm)]

/-- With plain data in the filter object the filters are those of the other theorems about `search`. -/
theorem C92_plain {vals : JsRef → JsValue} {filter : JsRef} {l : List (Str × JsRef)} {js : List (Job × JobEnd)}
    {read : Option (Option (List FeatureFilter))} (h : Reads filter js read) (hp : ReadsPlain vals js)
    (he : ∀ out, (Job.entries filter, out) ∈ js → out = .entries l) : read = some (parseFilters (l.map fun e => (e.1, vals e.2))) := by
  cases h with
  | threw out hn => exact absurd (he out (by simp)) (hn l)
  | entries hs =>
    rename_i l' js' fs
    have := he (.entries l') (by simp)
    cases this
    rw [plain_entries hs fun a b c hm => hp a b c (List.mem_cons_of_mem _ hm)]

/-- So a search with a filter object of plain data answers what the engine answers on that data, for the index that is loaded when the
data has been read. -/
theorem C92_values {env : CbEnv} {depth : Nat} {w w' : CbWorld} (hs : w.Sound) {input : Str} {cats tags : Nat} {order : Option Str}
    {filter : JsRef} {r : CbReply} {ch : CategoryHandler} {th : TagHandler} {n m : Nat} {dc dt : Bool}
    (hc : w.objs[cats]? = some ⟨.cats ch, some n, false, dc⟩) (ht : w.objs[tags]? = some ⟨.tags th, some m, false, dt⟩)
    (h : w.perform env (runJob env depth) (.search input cats tags order filter) = .ok (w', r)) :
    ∃ (es : List CbEvent) (e : Engine),
      w'.trace = w.trace ++ .called (.search input cats tags order filter) ::
        (es ++ [.returned (.search input cats tags order filter) r]) ∧
      (NoTrap es → e = (loadsIn es).foldl (fun e file => (e.initialize env.t file).1) w.engine) ∧
      ∀ vals l, ReadsPlain vals (directJobs 0 es) → (∀ out, (Job.entries filter, out) ∈ directJobs 0 es → out = .entries l) →
        match e.search .trap (env.order (w.trace ++ .called (.search input cats tags order filter) :: es)) env.lower input ch th order
            (l.map fun entry => (entry.1, vals entry.2)) with
        | (e', .ok res) => r = .results res ∧ w'.engine = e'
        | (e', .error _) => r = .trapped ∧ w'.engine = e' := by
  obtain ⟨es, e, read, h1, h2, h3, h4⟩ := C92_search hs hc ht h
  refine ⟨es, e, h1, h3, fun vals l hp he => ?_⟩
  rw [search_eq_filtered]
  have := C92_plain h2 hp he
  subst this
  cases hf : parseFilters (l.map fun entry => (entry.1, vals entry.2)) with
  | none => rw [hf] at h4; exact h4
  | some filters => rw [hf] at h4; exact h4

/-- Getting a handler makes a new object, with nothing selected and no observers; JavaScript is given that object and no other one
changes. -/
theorem C92_get {env : CbEnv} {run : Runner} {w : CbWorld} {c : Classic} (hw : w.engine.classic = ⟨.free, some c⟩) :
    (∃ w' k, w.perform env run .getCategories = .ok (w', .handler (some k)) ∧ w'.engine = w.engine ∧ w.objs[k]? = none ∧
      w'.objs[k]? = some ⟨.cats ⟨c, [], [], []⟩, some 0, false, false⟩ ∧ ∀ j, j ≠ k → w'.objs[j]? = w.objs[j]?) ∧
    ∃ w' k, w.perform env run .getTags = .ok (w', .handler (some k)) ∧ w'.engine = w.engine ∧ w.objs[k]? = none ∧
      w'.objs[k]? = some ⟨.tags ⟨c, [], [], []⟩, some 0, false, false⟩ ∧ ∀ j, j ≠ k → w'.objs[j]? = w.objs[j]? := by
  have last : ∀ (g : Handle), (w.objs ++ [g])[w.objs.length]? = some g ∧ ∀ j, j ≠ w.objs.length → (w.objs ++ [g])[j]? = w.objs[j]? := by
    intro g
    refine ⟨by simp, fun j hj => ?_⟩
    rw [List.getElem?_append]
    split
    · rfl
    · rw [List.getElem?_eq_none (by simp; omega), List.getElem?_eq_none (by omega)]
  constructor
  · have hc : (w.log (.called .getCategories)).engine.getCategories = .ok (some (.new c)) := by
      show (do let index ← w.engine.classic.lockUnwrap; _) = _
      rw [hw]; rfl
    have : w.perform env run .getCategories =
        .ok ({ w.log (.called .getCategories) with objs := w.objs ++ [Handle.mk (.cats (.new c)) (some 0) false false] }.log
          (.returned .getCategories (.handler (some w.objs.length))), .handler (some w.objs.length)) := by
      simp only [CbWorld.perform, CbWorld.step, hc]; rfl
    exact ⟨_, _, this, rfl, List.getElem?_eq_none (Nat.le_refl _), last _⟩
  · have hc : (w.log (.called .getTags)).engine.getTags = .ok (some (.new c)) := by
      show (do let index ← w.engine.classic.lockUnwrap; _) = _
      rw [hw]; rfl
    have : w.perform env run .getTags =
        .ok ({ w.log (.called .getTags) with objs := w.objs ++ [Handle.mk (.tags (.new c)) (some 0) false false] }.log
          (.returned .getTags (.handler (some w.objs.length))), .handler (some w.objs.length)) := by
      simp only [CbWorld.perform, CbWorld.step, hc]; rfl
    exact ⟨_, _, this, rfl, List.getElem?_eq_none (Nat.le_refl _), last _⟩

theorem runJob_finish {env : CbEnv} {depth : Nat} {w : CbWorld} {j : Job} {out : JobEnd} (h : ∀ es, env.code j es = .finish out) :
    runJob env (depth + 1) w j = .ok ((w.log (.started j)).log (.ended j out), out) := by
  simp only [runJob, h, runCode]
  rfl

/-- A filter `{feature: {get from() { throw 0 }, exact: v}}` keeps the products whose feature is `v`: the exact filters that no plain
object gives (C35). -/
theorem C92_exact {env : CbEnv} {depth : Nat} {w : CbWorld} (hs : w.Sound) {input : Str} {cats tags : Nat} {order : Option Str}
    {filter o : JsRef} {ch : CategoryHandler} {th : TagHandler} {n m : Nat} {dc dt : Bool} {feature : Str} {v : JsValue}
    (hc : w.objs[cats]? = some ⟨.cats ch, some n, false, dc⟩) (ht : w.objs[tags]? = some ⟨.tags th, some m, false, dt⟩)
    (he : ∀ es, env.code (.entries filter) es = .finish (.entries [(feature, o)]))
    (hfrom : ∀ es, env.code (.get o "from".toList) es = .finish .threw)
    (hexact : ∀ es, env.code (.get o "exact".toList) es = .finish (.value v)) :
    ∃ (w' : CbWorld) (r : CbReply) (tr : List CbEvent),
      w.perform env (runJob env (depth + 1)) (.search input cats tags order filter) = .ok (w', r) ∧
      match w.engine.searchFiltered .trap (env.order tr) env.lower input ch th order [⟨.exact v, feature⟩] with
      | (e', .ok res) => r = .results res ∧ w'.engine = e'
      | (e', .error _) => r = .trapped ∧ w'.engine = e' := by
  obtain ⟨w1, hs1, t1, g1, o1, hm⟩ := search_step (env := env) (runJob_fine env (depth + 1))
    (w := w.log (.called (.search input cats tags order filter))) hs (input := input) (order := order) (filter := filter) hc ht
  have hread : ∃ w2, w2.engine = w.engine ∧ readFilter (runJob env (depth + 1)) w1 filter = .ok (w2, some (some [⟨.exact v, feature⟩])) := by
    refine ⟨_, ?_, by
      simp only [readFilter, runJob_finish he, bind, Except.bind, readFeatures, readValue, getValue, runJob_finish hfrom, readExact,
        runJob_finish hexact]
      rfl⟩
    exact g1
  obtain ⟨w2, hg2, hread⟩ := hread
  rw [hread] at hm
  obtain ⟨w3, w4, _, _, e4, t4, hm⟩ := hm
  simp only at hm
  rw [hg2] at hm
  unfold CbWorld.perform
  rw [hm]
  split at hm
  · rename_i hsearch
    refine ⟨_, _, w2.trace, rfl, ?_⟩
    rw [hsearch]
    exact ⟨rfl, rfl⟩
  · rename_i hsearch
    refine ⟨_, _, w2.trace, rfl, ?_⟩
    rw [hsearch]
    exact ⟨rfl, rfl⟩

/-- An exception while the entries are listed passes through `search`, and both handlers stay borrowed: from then on (C92_shared) they
cannot be toggled or freed. -/
theorem C92_threw {env : CbEnv} {depth : Nat} {w w' : CbWorld} {input : Str} {cats tags : Nat} {order : Option Str} {filter : JsRef}
    (h : w.perform env (runJob env depth) (.search input cats tags order filter) = .ok (w', .threw)) (hs : w.Sound) :
    ∃ gc gt k l, w'.objs[cats]? = some gc ∧ gc.flag = some (k + 1) ∧ w'.objs[tags]? = some gt ∧ gt.flag = some (l + 1) := by
  by_cases hu : (∃ ch n d, w.objs[cats]? = some ⟨.cats ch, some n, false, d⟩) ∧ ∃ th n d, w.objs[tags]? = some ⟨.tags th, some n, false, d⟩
  · obtain ⟨⟨ch, n, dc, hc⟩, ⟨th, m, dt, ht⟩⟩ := hu
    have hne : cats ≠ tags := by
      rintro rfl
      rw [hc] at ht
      cases ht
    obtain ⟨w1, hs1, t1, g1, o1, hm⟩ := search_step (env := env) (runJob_fine env depth)
      (w := w.log (.called (.search input cats tags order filter))) hs (input := input) (order := order) (filter := filter) hc ht
    unfold CbWorld.perform at h
    split at hm
    · rw [hm] at h
      cases h
    · rename_i w2 read hread
      obtain ⟨w3, w4, _, _, _, _, hm⟩ := hm
      obtain ⟨es, rel⟩ := readFilter_rel (runJob_fine env depth) hread
      rw [hm] at h
      have hn : read = none ∧ w'.objs = w2.objs := by
        cases read with
        | none => cases h; exact ⟨rfl, rfl⟩
        | some read =>
          cases read with
          | none => cases h
          | some filters =>
            simp only at h
            split at h <;> cases h
      obtain ⟨gc, ec, mc⟩ := rel.moves cats ⟨.cats ch, some (n + 1), false, dc⟩ (by
        rw [o1, List.getElem?_set_ne (Ne.symm hne)]
        exact get_set_self hc _)
      obtain ⟨gt, et, mt⟩ := rel.moves tags ⟨.tags th, some (m + 1), false, dt⟩ (by
        rw [o1]
        exact get_set_self (g := ⟨.tags th, some m, false, dt⟩) (by rw [List.getElem?_set_ne hne]; exact ht) _)
      obtain ⟨k, hk, hk'⟩ := mc.shared n rfl
      obtain ⟨l, hl, hl'⟩ := mt.shared m rfl
      exact ⟨gc, gt, k - 1, l - 1, by rw [hn.2]; exact ec, by rw [hk]; congr 1; omega, by rw [hn.2]; exact et, by rw [hl]; congr 1; omega⟩
  · obtain ⟨w2, hr, _⟩ := C92_refused (env := env) (run := runJob env depth) (input := input) (order := order) (filter := filter) hu
    rw [hr] at h
    cases h

/-- `get_status` still answers then, and changes nothing. -/
theorem C92_status {env : CbEnv} {run : Runner} {w : CbWorld} (hs : w.Sound) {h n : Nat} {v : Obj} {d : Bool} {i : JsItem} {b : Bool}
    (hg : w.objs[h]? = some ⟨v, some n, false, d⟩) (hb : v.status i = some b) :
    ∃ w', w.perform env run (.status h i) = .ok (w', .status b) ∧ w'.engine = w.engine ∧ w'.objs = w.objs := by
  have hd := (hs h _ hg).live rfl
  simp only at hd
  subst hd
  have log_objs : (w.log (.called (.status h i))).objs = w.objs := rfl
  have hbor : (w.log (.called (.status h i))).borrow h =
      some { w.log (.called (.status h i)) with objs := w.objs.set h ⟨v, some (n + 1), false, false⟩ } := by
    unfold CbWorld.borrow
    rw [log_objs, hg]
  have e1 := get_set_self hg ⟨v, some (n + 1), false, false⟩
  have hgive : ({ w.log (.called (.status h i)) with objs := w.objs.set h ⟨v, some (n + 1), false, false⟩ } : CbWorld).giveBack h =
      .ok { w.log (.called (.status h i)) with
        objs := (w.objs.set h ⟨v, some (n + 1), false, false⟩).set h ⟨v, some (n + 1 - 1), false, false⟩ } := by
    unfold CbWorld.giveBack
    simp only [e1]
  have hstep : (w.log (.called (.status h i))).step env run (.status h i) = .ok ({ w.log (.called (.status h i)) with
      objs := (w.objs.set h ⟨v, some (n + 1), false, false⟩).set h ⟨v, some (n + 1 - 1), false, false⟩ }, .status b) := by
    simp only [CbWorld.step, CbWorld.kept, log_objs, hg, Option.map_some, Option.bind_some, hb, hbor,
      deref_eq (w := { w.log (.called (.status h i)) with objs := w.objs.set h ⟨v, some (n + 1), false, false⟩ }) e1, bind, Except.bind, hgive,
      Option.getD_some]
  have hp : w.perform env run (.status h i) = .ok (({ w.log (.called (.status h i)) with
      objs := (w.objs.set h ⟨v, some (n + 1), false, false⟩).set h ⟨v, some (n + 1 - 1), false, false⟩ } : CbWorld).log
        (.returned (.status h i) (.status b)), .status b) := by
    rw [CbWorld.perform, hstep]
    rfl
  refine ⟨_, hp, rfl, ?_⟩
  show (w.objs.set h _).set h _ = w.objs
  rw [List.set_set]
  refine List.ext_getElem? fun k => ?_
  rw [List.getElem?_set]
  split
  · rename_i hk
    subst hk
    rw [hg]
    simp [(List.getElem?_eq_some_iff.1 hg).1]
  · rfl

/-- Toggling with a freed option or tag is refused, but leaves the handler in use for good (C92_busy). -/
theorem C92_item {env : CbEnv} {run : Runner} {w : CbWorld} {h : Nat} {v : Obj} {d : Bool} (hg : w.objs[h]? = some ⟨v, some 0, false, d⟩) :
    ∃ w', w.perform env run (.editFreed h) = .ok (w', .refused) ∧ w'.objs[h]? = some ⟨v, none, false, d⟩ := by
  have log_objs : (w.log (.called (.editFreed h))).objs = w.objs := rfl
  have hb : (w.log (.called (.editFreed h))).borrowMut h =
      some { w.log (.called (.editFreed h)) with objs := w.objs.set h ⟨v, none, false, d⟩ } := by
    simp only [CbWorld.borrowMut, log_objs, hg]
  exact ⟨_, by simp only [CbWorld.perform, CbWorld.step, hb]; rfl, get_set_self hg _⟩

/-- A filter object that searches with itself when its entries are listed exhausts any stack, although no handler is ever made:
shared borrows nest (compare C87_depth). -/
theorem C92_unbounded {env : CbEnv} {input : Str} {cats tags : Nat} {order : Option Str} {filter : JsRef} {next : CbReply → CbScript}
    (hcode : ∀ es, env.code (.entries filter) es = .call (.search input cats tags order filter) next) (depth : Nat) {w : CbWorld}
    (hs : w.Sound) {ch : CategoryHandler} {th : TagHandler} {n m : Nat} {dc dt : Bool}
    (hc : w.objs[cats]? = some ⟨.cats ch, some n, false, dc⟩) (ht : w.objs[tags]? = some ⟨.tags th, some m, false, dt⟩) :
    w.perform env (runJob env depth) (.search input cats tags order filter) = .error .outOfStack := by
  have hne : cats ≠ tags := by
    rintro rfl
    rw [hc] at ht
    cases ht
  have reach : ∀ d {w : CbWorld}, w.Sound → ∀ {n m : Nat}, w.objs[cats]? = some ⟨.cats ch, some n, false, dc⟩ →
      w.objs[tags]? = some ⟨.tags th, some m, false, dt⟩ →
      (∀ w1 : CbWorld, w1.Sound → w1.objs[cats]? = some ⟨.cats ch, some (n + 1), false, dc⟩ →
        w1.objs[tags]? = some ⟨.tags th, some (m + 1), false, dt⟩ → runJob env d w1 (.entries filter) = .error .outOfStack) →
      w.perform env (runJob env d) (.search input cats tags order filter) = .error .outOfStack := by
    intro d w hs n m hc ht hd
    obtain ⟨w1, hs1, _, _, o1, hm⟩ := search_step (env := env) (runJob_fine env d)
      (w := w.log (.called (.search input cats tags order filter))) hs (input := input) (order := order) (filter := filter) hc ht
    have h1 := hd w1 hs1 (by rw [o1, List.getElem?_set_ne (Ne.symm hne)]; exact get_set_self hc _)
      (by rw [o1]; exact get_set_self (g := ⟨.tags th, some m, false, dt⟩) (by rw [List.getElem?_set_ne hne]; exact ht) _)
    have h2 : readFilter (runJob env d) w1 filter = .error .outOfStack := by
      unfold readFilter
      rw [h1]
      rfl
    rw [h2] at hm
    rw [CbWorld.perform, hm]
    rfl
  induction depth generalizing w n m with
  | zero => exact reach 0 hs hc ht fun _ _ _ _ => rfl
  | succ depth ih =>
    refine reach (depth + 1) hs hc ht fun w1 hs1 hc1 ht1 => ?_
    simp only [runJob, hcode, runCode]
    rw [ih (w := w1.log (.started (.entries filter))) hs1 hc1 ht1]
    rfl

/-! ## A concrete program

Filter object 7 has the entry `k: 8`, and reading `from` of object 8 tries to toggle, searches with another filter and then throws.
Listing the entries of object 9 throws. Object 6 is empty. Object 5 searches with itself. -/

def cbEnv : CbEnv :=
  { t := .debug64, lower := fun c => [c], order := fun _ => .ident,
    code := fun j _ =>
      match j with
      | .entries 7 => .finish (.entries [(['k'], 8)])
      | .entries 6 => .finish (.entries [])
      | .entries 5 => .call (.search [] 0 1 none 5) fun _ => .finish (.entries [])
      | .get 8 key =>
        if key = "from".toList then
          .call (.edit 0 (.toggle (.option ⟨['o'], 0, 0⟩))) fun _ => .call (.search [] 0 1 none 6) fun _ => .finish .threw
        else if key = "exact".toList then .finish (.value (.str ['x']))
        else .finish (.value .undefined)
      | _ => .finish .threw }

def cbEngine : Engine := { index := ⟨.free, none⟩, classic := ⟨.free, some smallClassic⟩ }

/-- Get both handlers and run the rest. -/
def cbProgram (rest : CbScript) : CbScript := .call .getCategories fun _ => .call .getTags fun _ => rest

def cbFlags (s : CbScript) : List (Option Nat × Bool × Bool) :=
  match runCode cbEnv (runJob cbEnv 3) (.start cbEngine) s with
  | .ok (w, _) => w.objs.map fun g => (g.flag, g.forgotten, g.dropped)
  | .error _ => []

def CbReply.isRefused : CbReply → Bool
  | .refused => true
  | _ => false

/-- The calls that returned, in order: whether they were refused. -/
def cbRefused (s : CbScript) : List Bool :=
  match runCode cbEnv (runJob cbEnv 3) (.start cbEngine) s with
  | .ok (w, _) => w.trace.filterMap fun
    | .returned _ r => some r.isRefused
    | _ => none
  | .error _ => []

/-- The inner toggle is refused, the inner search is not. -/
example : cbRefused (cbProgram (.call (.search [] 0 1 none 7) fun _ => .finish .threw)) = [false, false, true, false, false] := by
  decide +kernel

/-- Afterwards both handlers are free. -/
example : cbFlags (cbProgram (.call (.search [] 0 1 none 7) fun _ => .finish .threw)) = [(some 0, false, false), (some 0, false, false)] := by
  decide +kernel

/-- After an exception they are not: toggling and freeing are refused, searching is not. -/
example : cbRefused (cbProgram (.call (.search [] 0 1 none 9) fun _ => .call (.edit 0 (.toggle (.option ⟨['o'], 0, 0⟩))) fun _ =>
    .call (.search [] 0 1 none 6) fun _ => .call (.free 1) fun _ => .call (.search [] 0 1 none 6) fun _ => .finish .threw)) =
      [false, false, false, true, false, true, true] ∧
    cbFlags (cbProgram (.call (.search [] 0 1 none 9) fun _ => .call (.edit 0 (.toggle (.option ⟨['o'], 0, 0⟩))) fun _ =>
      .call (.search [] 0 1 none 6) fun _ => .call (.free 1) fun _ => .finish .threw)) = [(some 1, false, false), (some 1, true, false)] := by
  decide +kernel

/-- A freed option makes a handler unusable; a freed handler is gone. -/
example : cbFlags (cbProgram (.call (.editFreed 0) fun _ => .call (.free 1) fun _ => .finish .threw)) =
    [(none, false, false), (some 0, true, true)] := by
  decide +kernel

/-- So the hypotheses of the theorems above are met. -/
def cbWorld : CbWorld :=
  { engine := cbEngine, objs := [⟨.cats (.new smallClassic), some 0, false, false⟩, ⟨.tags (.new smallClassic), some 0, false, false⟩],
    trace := [.called .getCategories, .returned .getCategories (.handler (some 0)), .called .getTags, .returned .getTags (.handler (some 1))] }

theorem cbWorld_reach : CbReach cbEnv cbWorld :=
  .ran (s := cbProgram (.finish .threw)) (out := .threw) 0 (.start cbEngine) rfl

example : runCode cbEnv (runJob cbEnv 3) cbWorld (.call (.search [] 0 1 none 7) fun _ => .finish .threw) ≠ .error .useAfterFree :=
  C92_safe cbWorld_reach 3 _

example (depth : Nat) : cbWorld.perform cbEnv (runJob cbEnv depth) (.search [] 0 1 none 5) = .error .outOfStack :=
  C92_unbounded (fun _ => rfl) depth cbWorld_reach.inv.sound rfl rfl

example : ∃ w', cbWorld.perform cbEnv (runJob cbEnv 1) (.search [] 0 1 none 9) = .ok (w', .threw) := ⟨_, rfl⟩

example : ∃ w', cbWorld.perform cbEnv (runJob cbEnv 1) (.editFreed 0) = .ok (w', .refused) ∧
    w'.objs[0]? = some ⟨.cats (.new smallClassic), none, false, false⟩ := C92_item rfl

example := C92_get (env := cbEnv) (run := runJob cbEnv 1) (w := cbWorld) (c := smallClassic) rfl

/-- A filter object that throws in `from`, as C92_exact needs it. -/
def exactEnv : CbEnv :=
  { cbEnv with code := fun j _ =>
      match j with
      | .entries _ => .finish (.entries [(['k'], 8)])
      | .get _ key => if key = "exact".toList then .finish (.value (.str ['x'])) else .finish .threw
      | .observer _ _ => .finish .threw }

example : ∃ w' r tr, cbWorld.perform exactEnv (runJob exactEnv 1) (.search [] 0 1 none 7) = .ok (w', r) ∧
    match cbWorld.engine.searchFiltered .trap (exactEnv.order tr) exactEnv.lower [] (.new smallClassic) (.new smallClassic) none
      [⟨.exact (.str ['x']), ['k']⟩] with
    | (e', .ok res) => r = .results res ∧ w'.engine = e'
    | (e', .error _) => r = .trapped ∧ w'.engine = e' :=
  C92_exact (depth := 0) cbWorld_reach.inv.sound rfl rfl (fun _ => rfl) (fun _ => rfl) (fun _ => rfl)

end Idx
