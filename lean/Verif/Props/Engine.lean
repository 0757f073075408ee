import Verif.Props.Ordering
/-! # C42, C50, C53: call histories of one thread -/
namespace Idx

/-! ## Histories -/

/-- The calls that touch the globals. (`get_categories`, `get_tags`, `get_orders` and `tag_suggestion` only read them;
every call may see its own hash order.) -/
inductive ApiCall where
  | init (file : Bytes)
  | search (o : HashOrd) (input : Str) (cats : CategoryHandler) (tags : TagHandler) (order : Option Str)
      (filter : List (Str × JsValue))

/-- What the caller sees. -/
inductive Outcome where
  | loaded
  | answered (r : Option ProductProducer)
  | panicked (w : Panic)

/-- One call. -/
def ApiCall.run (t : Target) (mode : PanicMode) (lower : Char → List Char) (e : Engine) : ApiCall → Engine × Outcome
  | init file =>
    match e.initialize t file with
    | (e', .ok _) => (e', .loaded)
    | (e', .error w) => (e', .panicked w)
  | search o input cats tags order filter =>
    match e.search mode o lower input cats tags order filter with
    | (e', .ok r) => (e', .answered r)
    | (e', .error w) => (e', .panicked w)

/-- A sequence of calls with what each returned. -/
def play (t : Target) (mode : PanicMode) (lower : Char → List Char) : Engine → List ApiCall →
    Engine × List (ApiCall × Outcome)
  | e, [] => (e, [])
  | e, c :: cs =>
    let r := c.run t mode lower e
    let rest := play t mode lower r.1 cs
    (rest.1, (c, r.2) :: rest.2)

theorem play_append (t : Target) (mode : PanicMode) (lower : Char → List Char) (a b : List ApiCall) : ∀ e : Engine,
    play t mode lower e (a ++ b) =
      ((play t mode lower (play t mode lower e a).1 b).1,
       (play t mode lower e a).2 ++ (play t mode lower (play t mode lower e a).1 b).2) := by
  induction a with
  | nil => intro e; rfl
  | cons c a ih => intro e; simp only [List.cons_append, play, ih]

/-- Spec: the file of the last `initialize` that returned. -/
def lastLoaded : List (ApiCall × Outcome) → Option Bytes → Option Bytes
  | [], acc => acc
  | (.init file, .loaded) :: rest, _ => lastLoaded rest (some file)
  | _ :: rest, acc => lastLoaded rest acc

theorem lastLoaded_append (a b : List (ApiCall × Outcome)) : ∀ acc,
    lastLoaded (a ++ b) acc = lastLoaded b (lastLoaded a acc) := by
  induction a with
  | nil => intro acc; rfl
  | cons x a ih =>
    intro acc
    obtain ⟨c, r⟩ := x
    cases c <;> cases r <;> simp [lastLoaded, ih]

/-! ## What one search does to the globals -/

/-- A search changes nothing unless it panics; if it panics, it held the lock of the n-gram index, which was free and
filled, and possibly also the other one. The contents never change. -/
theorem search_state (mode : PanicMode) (o : HashOrd) (lower : Char → List Char) (e : Engine) (input : Str)
    (cats : CategoryHandler) (tags : TagHandler) (order : Option Str) (filter : List (Str × JsValue)) :
    (∀ e' r, e.search mode o lower input cats tags order filter = (e', .ok r) → e' = e) ∧
    (∀ e' w, e.search mode o lower input cats tags order filter = (e', .error w) →
      e'.index.value = e.index.value ∧ e'.classic.value = e.classic.value ∧
      (e' = e ∧ e.index.state = .stuck ∨
        e.index.state = .free ∧ e.index.value ≠ none ∧ e'.index.state ≠ .free ∧
          (e'.classic.state = e.classic.state ∨ e.classic.state = .free))) := by
  have hp : ∀ {α : Type} (s : Slot α), (s.panicked mode).state ≠ .free := by
    intro α s
    cases mode <;> simp [Slot.panicked]
  have hfree : ∀ {α : Type} {s : Slot α} {a : α}, s.lockOk = .ok (some a) → s.state = .free ∧ s.value = some a := by
    intro α s a h
    unfold Slot.lockOk at h
    split at h
    · rename_i hs; injection h with h; exact ⟨hs, h⟩
    · cases h
    · cases h
  constructor
  · intro e' r h
    unfold Engine.search at h
    split at h
    · cases h; rfl
    · split at h
      · cases h
      · cases h; rfl
      · split at h
        · cases h
        · split at h
          · cases h; rfl
          · split at h
            · cases h
            · cases h; rfl
            · split at h
              · cases h; rfl
              · split at h
                · cases h
                · cases h; rfl
  · intro e' w h
    unfold Engine.search at h
    split at h
    · cases h
    · split at h
      · rename_i w' hl
        cases h
        refine ⟨rfl, rfl, .inl ⟨rfl, ?_⟩⟩
        unfold Slot.lockOk at hl
        split at hl
        · cases hl
        · cases hl
        · assumption
      · cases h
      · rename_i ix hix
        obtain ⟨h1, h2⟩ := hfree hix
        split at h
        · cases h
          exact ⟨rfl, rfl, .inr ⟨h1, by rw [h2]; simp, hp _, .inl rfl⟩⟩
        · split at h
          · cases h
          · split at h
            · cases h
              exact ⟨rfl, rfl, .inr ⟨h1, by rw [h2]; simp, hp _, .inl rfl⟩⟩
            · cases h
            · rename_i cl hcl
              obtain ⟨h3, h4⟩ := hfree hcl
              split at h
              · cases h
              · split at h
                · cases h
                  exact ⟨rfl, rfl, .inr ⟨h1, by rw [h2]; simp, hp _, .inr h3⟩⟩
                · cases h

/-! ## C42 -/

/-- What holds after any history: nothing loaded and both locks free, or both globals hold the parts of the last file
loaded, and the second lock is only lost together with the first. -/
def Serves (t : Target) (e : Engine) : Option Bytes → Prop
  | none => e = Engine.start
  | some file => ∃ ix cl, deserializeAll t ngramIndexSize file = .ok (ix, cl) ∧ e.index.value = some ix ∧
      e.classic.value = some cl ∧ (e.classic.state ≠ .free → e.index.state ≠ .free)

theorem lockUnwrap_ok {α : Type} {s : Slot α} {v : Option α} (h : s.lockUnwrap = .ok v) : s.state = .free ∧ s.value = v := by
  unfold Slot.lockUnwrap at h
  split at h
  · rename_i hs; cases h; exact ⟨hs, rfl⟩
  · cases h
  · cases h

theorem lockUnwrap_free {α : Type} {s : Slot α} (h : s.state = .free) : s.lockUnwrap = .ok s.value := by
  simp [Slot.lockUnwrap, h]

/-- `initialize` on a reachable state: either it loads both parts of the file, or nothing changes. -/
theorem initialize_cases (t : Target) (e : Engine) (hs : e.classic.state ≠ .free → e.index.state ≠ .free) (file : Bytes) :
    (∃ ix cl, deserializeAll t ngramIndexSize file = .ok (ix, cl) ∧ e.index.state = .free ∧ e.classic.state = .free ∧
      e.initialize t file = ({ index := ⟨.free, some ix⟩, classic := ⟨.free, some cl⟩ }, .ok true)) ∨
    (∃ w, e.initialize t file = (e, .error w)) := by
  unfold Engine.initialize
  split
  · exact .inr ⟨_, rfl⟩
  · exact .inr ⟨_, rfl⟩
  · rename_i ix cl hd
    split
    · exact .inr ⟨_, rfl⟩
    · rename_i v hv
      have h1 := (lockUnwrap_ok hv).1
      have h2 : e.classic.state = .free := by
        cases h : e.classic.state with
        | free => rfl
        | poisoned => exact absurd h1 (hs (by rw [h]; simp))
        | stuck => exact absurd h1 (hs (by rw [h]; simp))
      refine .inl ⟨ix, cl, hd, h1, h2, ?_⟩
      simp only [lockUnwrap_free h2]
      rw [h1, h2]

theorem serves_classic {t : Target} {e : Engine} {acc : Option Bytes} (h : Serves t e acc) :
    e.classic.state ≠ .free → e.index.state ≠ .free := by
  cases acc with
  | none => intro hc; cases h; exact absurd rfl hc
  | some f => obtain ⟨_, _, _, _, _, h⟩ := h; exact h

theorem serves_step (t : Target) (mode : PanicMode) (lower : Char → List Char) (e : Engine) (acc : Option Bytes)
    (h : Serves t e acc) (c : ApiCall) :
    Serves t (c.run t mode lower e).1 (lastLoaded [(c, (c.run t mode lower e).2)] acc) := by
  cases c with
  | init file =>
    simp only [ApiCall.run]
    rcases initialize_cases t e (serves_classic h) file with ⟨ix, cl, hd, _, _, he⟩ | ⟨w, he⟩
    · rw [he]
      exact ⟨ix, cl, hd, rfl, rfl, fun hc => absurd rfl hc⟩
    · rw [he]
      exact h
  | search o input cats tags order filter =>
    simp only [ApiCall.run]
    obtain ⟨hok, herr⟩ := search_state mode o lower e input cats tags order filter
    cases hr : e.search mode o lower input cats tags order filter with
    | mk e' r =>
      cases r with
      | ok r =>
        have := hok e' r hr
        subst this
        exact h
      | error w =>
        obtain ⟨h1, h2, h3⟩ := herr e' w hr
        simp only [lastLoaded]
        cases acc with
        | none =>
          cases h
          rcases h3 with ⟨rfl, h3⟩ | ⟨_, h3, _⟩
          · rfl
          · exact absurd rfl h3
        | some file =>
          obtain ⟨ix, cl, hd, hi, hc, hst⟩ := h
          refine ⟨ix, cl, hd, by rw [h1, hi], by rw [h2, hc], ?_⟩
          rcases h3 with ⟨rfl, _⟩ | ⟨_, _, h3, _⟩
          · exact hst
          · exact fun _ => h3

/-- After every history of calls of one thread, panicking or not: both globals belong to the file of the last
`initialize` that returned; before the first one the engine is untouched. -/
theorem C42 (t : Target) (mode : PanicMode) (lower : Char → List Char) (calls : List ApiCall) :
    Serves t (play t mode lower Engine.start calls).1 (lastLoaded (play t mode lower Engine.start calls).2 none) := by
  have : ∀ (calls : List ApiCall) (e : Engine) (acc : Option Bytes), Serves t e acc →
      Serves t (play t mode lower e calls).1 (lastLoaded (play t mode lower e calls).2 acc) := by
    intro calls
    induction calls with
    | nil => intro e acc h; exact h
    | cons c cs ih =>
      intro e acc h
      have := ih _ _ (serves_step t mode lower e acc h c)
      simp only [play]
      rw [← List.singleton_append, lastLoaded_append]
      exact this
  exact this calls _ none rfl

/-- Before a successful load every query function returns nothing. -/
theorem C42_before (t : Target) (mode : PanicMode) (lower : Char → List Char) (calls : List ApiCall)
    (h : lastLoaded (play t mode lower Engine.start calls).2 none = none) :
    let e := (play t mode lower Engine.start calls).1
    (∀ o input cats tags order filter, e.search mode o lower input cats tags order filter = (e, .ok none)) ∧
    e.getCategories = .ok none ∧ e.getTags = .ok none ∧ (∀ o, e.getOrders o = .ok none) ∧
    ∀ query, (e.tagSuggestion query) = .ok none := by
  have hs := C42 t mode lower calls
  rw [h] at hs
  intro e
  have he : e = Engine.start := hs
  rw [he]
  refine ⟨?_, rfl, rfl, fun _ => rfl, fun _ => rfl⟩
  intro o input cats tags order filter
  unfold Engine.search
  split <;> rfl

/-- A failing `initialize` leaves everything as it was, after any history. -/
theorem C42_failed (t : Target) (mode : PanicMode) (lower : Char → List Char) (calls : List ApiCall) (file : Bytes)
    (e' : Engine) (w : Panic) (h : (play t mode lower Engine.start calls).1.initialize t file = (e', .error w)) :
    e' = (play t mode lower Engine.start calls).1 := by
  rcases initialize_cases t _ (serves_classic (C42 t mode lower calls)) file with ⟨_, _, _, _, _, he⟩ | ⟨w', he⟩
  · rw [he] at h; cases h
  · rw [he] at h; cases h; rfl

/-- Spec: no search panicked. -/
def NoSearchPanicked (trace : List (ApiCall × Outcome)) : Prop :=
  ∀ x ∈ trace, ∀ o input cats tags order filter w, x ≠ (.search o input cats tags order filter, .panicked w)

theorem free_step (t : Target) (mode : PanicMode) (lower : Char → List Char) (e : Engine)
    (h : e.index.state = .free ∧ e.classic.state = .free) (c : ApiCall)
    (hc : NoSearchPanicked [(c, (c.run t mode lower e).2)]) :
    (c.run t mode lower e).1.index.state = .free ∧ (c.run t mode lower e).1.classic.state = .free := by
  cases c with
  | init file =>
    simp only [ApiCall.run]
    rcases initialize_cases t e (fun hn => absurd h.2 hn) file with ⟨_, _, _, _, _, he⟩ | ⟨w, he⟩
    · rw [he]; exact ⟨rfl, rfl⟩
    · rw [he]; exact h
  | search o input cats tags order filter =>
    simp only [ApiCall.run] at hc ⊢
    cases hr : e.search mode o lower input cats tags order filter with
    | mk e' r =>
      cases r with
      | ok r =>
        have := (search_state mode o lower e input cats tags order filter).1 e' r hr
        subst this
        exact h
      | error w =>
        rw [hr] at hc
        exact absurd rfl (hc _ (List.mem_singleton.2 rfl) o input cats tags order filter w)

theorem free_play (t : Target) (mode : PanicMode) (lower : Char → List Char) (calls : List ApiCall) : ∀ (e : Engine),
    e.index.state = .free ∧ e.classic.state = .free → NoSearchPanicked (play t mode lower e calls).2 →
    (play t mode lower e calls).1.index.state = .free ∧ (play t mode lower e calls).1.classic.state = .free := by
  induction calls with
  | nil => intro e h _; exact h
  | cons c cs ih =>
    intro e h hn
    simp only [play] at hn ⊢
    refine ih _ (free_step t mode lower e h c ?_) ?_
    · intro x hx
      simp only [List.mem_singleton] at hx
      exact hn x (by simp [hx])
    · exact fun x hx => hn x (by simp [hx])

/-- After a history in which a file was loaded and no search panicked (failing loads are allowed) every function
answers from that file. Missing for the full claim: histories with a panicking search, for which it is false
(`C53_false`). -/
theorem C42_serves_partial (t : Target) (mode : PanicMode) (lower : Char → List Char) (calls : List ApiCall) (file : Bytes)
    (h : lastLoaded (play t mode lower Engine.start calls).2 none = some file)
    (hn : NoSearchPanicked (play t mode lower Engine.start calls).2) :
    let e := (play t mode lower Engine.start calls).1
    ∃ ix cl, deserializeAll t ngramIndexSize file = .ok (ix, cl) ∧
      e = { index := ⟨.free, some ix⟩, classic := ⟨.free, some cl⟩ } ∧
      e.getCategories = .ok (some (.new cl)) ∧ e.getTags = .ok (some (.new cl)) ∧
      (∀ o, ∃ l, e.getOrders o = .ok (some l) ∧ ∀ name, name ∈ l ↔ (cl.order.getOrders name).isSome = true) := by
  intro e
  have hs := C42 t mode lower calls
  rw [h] at hs
  obtain ⟨ix, cl, hd, hi, hc, _⟩ := hs
  obtain ⟨f1, f2⟩ := free_play t mode lower calls Engine.start ⟨rfl, rfl⟩ hn
  have he : e = { index := ⟨.free, some ix⟩, classic := ⟨.free, some cl⟩ } := by
    show (play t mode lower Engine.start calls).1 = _
    generalize (play t mode lower Engine.start calls).1 = x at *
    obtain ⟨⟨s1, v1⟩, ⟨s2, v2⟩⟩ := x
    simp only at f1 f2 hi hc
    rw [f1, f2, hi, hc]
  refine ⟨ix, cl, hd, he, by rw [he]; rfl, by rw [he]; rfl, fun o => ?_⟩
  refine ⟨cl.order.options o, by rw [he]; rfl, fun name => ?_⟩
  unfold OrderIndex.options OrderIndex.getOrders
  rw [AMap.get_isSome_iff]
  exact ((o.perm "order keys" cl.order).map _).mem_iff

end Idx
