import Verif.Model.Concurrent
import Verif.Props.Failures
/-! # C43: calls from several threads -/
namespace Idx

/-! ## Effects one after another -/

/-- Spec: an effect happening at one moment. A search is the sequential `search`; `initialize` is two effects. -/
def Op.apply (lower : Char → List Char) (e : Engine) : Op → Engine × Answer
  | .refuse w => (e, .panicked w)
  | .setIndex ix =>
    match e.index.lockUnwrap with
    | .error w => (e, .panicked w)
    | .ok _ => ({ e with index := { e.index with value := some ix } }, .half)
  | .setClassic cl =>
    match e.classic.lockUnwrap with
    | .error w => (e, .panicked w)
    | .ok _ => ({ e with classic := { e.classic with value := some cl } }, .loaded)
  | .search a =>
    match e.search .unwind a.o lower a.input a.cats a.tags a.order a.filter with
    | (e', .ok r) => (e', .produced r)
    | (e', .error w) => (e', .panicked w)
  | .read k => (e, k.run e)

/-- The sequential `initialize` is its two effects, one directly after the other. -/
theorem initialize_effects (t : Target) (lower : Char → List Char) (e : Engine) (file : Bytes) (ix : GramIndex Char)
    (cl : Classic) (h : deserializeAll t ngramIndexSize file = .ok (ix, cl)) :
    e.initialize t file =
      match Op.apply lower e (.setIndex ix) with
      | (e', .half) =>
        match Op.apply lower e' (.setClassic cl) with
        | (e'', .loaded) => (e'', .ok true)
        | (e'', .panicked w) => (e'', .error w)
        | (e'', _) => (e'', .error .explicit)
      | (e', .panicked w) => (e', .error w)
      | (e', _) => (e', .error .explicit) := by
  unfold Engine.initialize
  rw [h]
  simp only [Op.apply]
  cases h1 : e.index.lockUnwrap with
  | error w => simp
  | ok v =>
    simp only
    cases h2 : e.classic.lockUnwrap with
    | error w => simp
    | ok v => simp

/-- Spec: the log is what happens if its effects are carried out one after the other from the start, with exactly the
recorded answers, and ends in `e`. -/
inductive Explains (lower : Char → List Char) : List (Nat × Request × Op × Answer) → Engine → Prop where
  | nil : Explains lower [] Engine.start
  | snoc {log e e' op a} (i : Nat) (r : Request) : Explains lower log e → Op.apply lower e op = (e', a) →
      Explains lower (log ++ [(i, r, op, a)]) e'

/-- Spec: the effect belongs to the call. -/
def Belongs (t : Target) : Request → Op → Prop
  | .init file, .refuse w =>
    deserializeAll t ngramIndexSize file = .none ∧ w = .unwrapNone ∨ deserializeAll t ngramIndexSize file = .panic w
  | .init file, .setIndex ix => ∃ cl, deserializeAll t ngramIndexSize file = .ok (ix, cl)
  | .init file, .setClassic cl => ∃ ix, deserializeAll t ngramIndexSize file = .ok (ix, cl)
  | .search a, .search b => a = b
  | .read k, .read k' => k = k'
  | _, _ => False

/-- The answer ends the call. -/
def Answer.final : Answer → Bool
  | .half => false
  | _ => true

/-- The answer a thread has been given but not yet returned. -/
def Stage.pending : Stage → Option Answer
  | .searchReturn p => some (.produced p)
  | .searchUnwind w => some (.panicked w)
  | .searchAbort w => some (.panicked w)
  | _ => none

def pendingOf : Option (Request × Stage) → List (Request × Answer)
  | none => []
  | some (r, st) =>
    match st.pending with
    | some a => [(r, a)]
    | none => []

/-! ## Invariant -/

abbrev Thread := Option (Request × Stage)

def Thread.owns (own : Stage → Bool) : Thread → Bool
  | none => false
  | some (_, st) => own st

/-- A lock belongs to exactly the thread in an owning stage. -/
def Owned (own : Stage → Bool) (lock : Option Nat) (threads : List Thread) : Prop :=
  ∀ i, lock = some i ↔ ∃ y, threads[i]? = some y ∧ Thread.owns own y = true

theorem set_get {threads : List Thread} {i : Nat} {x : Thread} (hi : threads[i]? = some x) (y : Thread) (j : Nat) :
    (threads.set i y)[j]? = if j = i then some y else threads[j]? := by
  rw [List.getElem?_set]
  have hlt := (List.getElem?_eq_some_iff.1 hi).1
  by_cases h : i = j
  · subst h; simp [hlt]
  · simp [h, Ne.symm h]

theorem owned_same {own : Stage → Bool} {lock : Option Nat} {threads : List Thread} (h : Owned own lock threads) {i : Nat}
    {x y : Thread} (hi : threads[i]? = some x) (hxy : Thread.owns own x = Thread.owns own y) :
    Owned own lock (threads.set i y) := by
  intro j
  rw [set_get hi, h j]
  by_cases hj : j = i
  · subst hj
    simp only [if_pos, hi, Option.some.injEq, exists_eq_left', hxy]
  · simp only [if_neg hj]

theorem owned_acquire {own : Stage → Bool} {threads : List Thread} (h : Owned own none threads) {i : Nat}
    {x y : Thread} (hi : threads[i]? = some x) (hy : Thread.owns own y = true) : Owned own (some i) (threads.set i y) := by
  intro j
  rw [set_get hi]
  by_cases hj : j = i
  · subst hj; simp [hy]
  · simp only [if_neg hj]
    constructor
    · intro e; exact absurd (Option.some.inj e).symm hj
    · intro e; exact absurd ((h j).2 e) (by simp)

theorem owned_release {own : Stage → Bool} {lock : Option Nat} {threads : List Thread} (h : Owned own lock threads) {i : Nat}
    {x y : Thread} (hi : threads[i]? = some x) (hx : Thread.owns own x = true) (hy : Thread.owns own y = false) :
    Owned own none (threads.set i y) := by
  intro j
  rw [set_get hi]
  by_cases hj : j = i
  · subst hj; simp [hy]
  · simp only [if_neg hj]
    constructor
    · intro e; cases e
    · intro e
      have h1 := (h j).2 e
      have h2 := (h i).2 ⟨x, hi, hx⟩
      rw [h1] at h2
      exact absurd (Option.some.inj h2) hj

/-- What a thread in a stage knows. -/
def Stage.Facts (t : Target) (lower : Char → List Char) (index : Slot (GramIndex Char)) (r : Request) : Stage → Prop
  | .initParse => ∃ file, r = .init file
  | .initWaitIndex ix cl | .initHoldIndex ix cl => ∃ file, r = .init file ∧ deserializeAll t ngramIndexSize file = .ok (ix, cl)
  | .initWaitClassic cl | .initHoldClassic cl =>
    ∃ file ix, r = .init file ∧ deserializeAll t ngramIndexSize file = .ok (ix, cl)
  | .searchParse | .searchReturn _ | .searchUnwind _ | .searchAbort _ => ∃ a, r = .search a
  | .searchWaitIndex fs | .searchHoldIndex fs => ∃ a, r = .search a ∧ parseFilters a.filter = some fs
  | .searchWaitClassic ix ids name | .searchHoldClassic ix ids name =>
    ∃ a fs, r = .search a ∧ parseFilters a.filter = some fs ∧ index = ⟨.free, some ix⟩ ∧
      searchIds a.o lower ix a.input a.cats a.tags fs = .ok ids ∧ a.order = some name
  | .readWait | .readHold => ∃ k, r = .read k

/-- Only owners of SHARED_INDEX know anything about it. -/
theorem facts_index {t : Target} {lower : Char → List Char} {index index' : Slot (GramIndex Char)} {r : Request} {st : Stage}
    (h : st.Facts t lower index r) (hn : st.ownsIndex = false) : st.Facts t lower index' r := by
  cases st <;> first | exact h | (simp [Stage.ownsIndex] at hn)

/-- The globals once a thread that is unwinding has dropped its guard of SHARED_INDEX. -/
def Conc.settled (s : Conc) : Engine :=
  match s.lockIndex with
  | none => s.e
  | some i =>
    match s.threads[i]? with
    | some (some (_, .searchUnwind _)) => { s.e with index := s.e.index.panicked .unwind }
    | _ => s.e

/-- The answers thread `i` was given, according to the log. -/
def logged (log : List (Nat × Request × Op × Answer)) (i : Nat) : List (Request × Answer) :=
  (log.filter fun x => x.1 == i && x.2.2.2.final).map fun x => (x.2.1, x.2.2.2)

/-- The answers thread `i` returned. -/
def returnedBy (l : List (Nat × Request × Answer)) (i : Nat) : List (Request × Answer) :=
  (l.filter fun x => x.1 == i).map (·.2)

structure Inv (t : Target) (lower : Char → List Char) (s : Conc) : Prop where
  index : Owned Stage.ownsIndex s.lockIndex s.threads
  classic : Owned Stage.ownsClassic s.lockClassic s.threads
  facts : ∀ (i : Nat) (r : Request) (st : Stage), s.threads[i]? = some (some (r, st)) → st.Facts t lower s.e.index r
  explains : Explains lower s.log s.settled
  belongs : ∀ x ∈ s.log, Belongs t x.2.1 x.2.2.1
  answers : ∀ (i : Nat) (y : Thread), s.threads[i]? = some y → logged s.log i = returnedBy s.returned i ++ pendingOf y

theorem inv_start (t : Target) (lower : Char → List Char) (n : Nat) : Inv t lower (.start n) := by
  have hnone : ∀ (i : Nat) (y : Thread), (Conc.start n).threads[i]? = some y → y = none := by
    intro i y h
    simp only [Conc.start] at h
    exact List.eq_of_mem_replicate (List.mem_of_getElem? h)
  refine ⟨?_, ?_, ?_, .nil, by simp [Conc.start], ?_⟩
  · intro i
    constructor
    · intro h; cases h
    · rintro ⟨y, hy, h⟩; rw [hnone i y hy] at h; cases h
  · intro i
    constructor
    · intro h; cases h
    · rintro ⟨y, hy, h⟩; rw [hnone i y hy] at h; cases h
  · intro i r st h; exact absurd (hnone i _ h) (by simp)
  · intro i y h; rw [hnone i y h]; rfl

/-- How `settled` looks for the thread at hand. -/
theorem settled_owner {s : Conc} {t : Target} {lower : Char → List Char} (h : Inv t lower s) {i : Nat} {r : Request}
    {st : Stage} (hi : s.threads[i]? = some (some (r, st))) (ho : st.ownsIndex = true) (hu : ∀ w, st ≠ .searchUnwind w) :
    s.settled = s.e := by
  have := (h.index i).2 ⟨_, hi, ho⟩
  unfold Conc.settled
  rw [this]
  simp only [hi]
  cases st <;> first | rfl | exact absurd rfl (hu _)

/-- `settled` only ever changes the state of SHARED_INDEX. -/
theorem settled_classic (s : Conc) : s.settled.classic = s.e.classic := by
  unfold Conc.settled
  split
  · rfl
  · split <;> rfl

/-- `settled` after a step of a thread that does not own SHARED_INDEX and does not touch it. -/
theorem settled_other {t : Target} {lower : Char → List Char} {s : Conc} (h : Inv t lower s) {i : Nat} {x y : Thread}
    (hi : s.threads[i]? = some x) (hx : Thread.owns Stage.ownsIndex x = false)
    (s' : Conc) (h1 : s'.threads = s.threads.set i y) (h2 : s'.lockIndex = s.lockIndex) (h3 : s'.e.index = s.e.index) :
    s'.settled = { s'.e with index := s.settled.index } := by
  unfold Conc.settled
  rw [h2, h1]
  cases hl : s.lockIndex with
  | none => simp only; rw [← h3]
  | some j =>
    have hji : j ≠ i := by
      rintro rfl
      obtain ⟨z, hz, ho⟩ := (h.index j).1 hl
      rw [hi] at hz
      cases hz
      rw [hx] at ho
      cases ho
    simp only
    rw [set_get hi, if_neg hji]
    rcases s.threads[j]? with _ | _ | ⟨r, st⟩
    · simp only; rw [← h3]
    · simp only; rw [← h3]
    · cases st <;> simp only <;> rw [← h3]

/-- `settled` when no thread is unwinding. -/
theorem settled_plain (s : Conc) (h : ∀ i r st, s.lockIndex = some i → s.threads[i]? = some (some (r, st)) →
    ∀ w, st ≠ .searchUnwind w) : s.settled = s.e := by
  unfold Conc.settled
  split
  · rfl
  · rename_i i hl
    split
    · rename_i r w hi
      exact absurd rfl (h i r _ hl hi w)
    · rfl

theorem facts_set {t : Target} {lower : Char → List Char} {s : Conc} (h : Inv t lower s) {i : Nat} {x y : Thread}
    (hi : s.threads[i]? = some x) (index' : Slot (GramIndex Char))
    (hx : index' = s.e.index ∨ Thread.owns Stage.ownsIndex x = true)
    (hy : ∀ r st, y = some (r, st) → st.Facts t lower index' r) :
    ∀ (j : Nat) (r : Request) (st : Stage), (s.threads.set i y)[j]? = some (some (r, st)) → st.Facts t lower index' r := by
  intro j r st hj
  rw [set_get hi] at hj
  by_cases hji : j = i
  · rw [if_pos hji] at hj
    exact hy r st (Option.some.inj hj)
  · rw [if_neg hji] at hj
    have hf := h.facts j r st hj
    rcases hx with hx | hx
    · rw [hx]; exact hf
    · cases ho : st.ownsIndex with
      | false => exact facts_index hf ho
      | true =>
        have h1 := (h.index j).2 ⟨_, hj, ho⟩
        have h2 := (h.index i).2 ⟨_, hi, hx⟩
        rw [h1] at h2
        exact absurd (Option.some.inj h2) hji

theorem logged_append (log : List (Nat × Request × Op × Answer)) (i j : Nat) (r : Request) (op : Op) (a : Answer) :
    logged (log ++ [(i, r, op, a)]) j = logged log j ++ (if j = i ∧ a.final = true then [(r, a)] else []) := by
  unfold logged
  rw [List.filter_append, List.map_append]
  congr 1
  by_cases h : j = i
  · subst h
    cases ha : a.final <;> simp [ha]
  · have : (i == j) = false := by simp [Ne.symm h]
    simp [this, h]

theorem returnedBy_append (l : List (Nat × Request × Answer)) (i j : Nat) (r : Request) (a : Answer) :
    returnedBy (l ++ [(i, r, a)]) j = returnedBy l j ++ (if j = i then [(r, a)] else []) := by
  unfold returnedBy
  rw [List.filter_append, List.map_append]
  congr 1
  by_cases h : j = i
  · subst h; simp
  · have : (i == j) = false := by simp [Ne.symm h]
    simp [this, h]

/-- Bookkeeping of answers over a step that logs `new` and returns `ret`. -/
theorem answers_set {t : Target} {lower : Char → List Char} {s : Conc} (h : Inv t lower s) {i : Nat} {x y : Thread}
    (hi : s.threads[i]? = some x) (log' : List (Nat × Request × Op × Answer)) (returned' : List (Nat × Request × Answer))
    (new ret : List (Request × Answer))
    (hl : ∀ j, logged log' j = logged s.log j ++ (if j = i then new else []))
    (hr : ∀ j, returnedBy returned' j = returnedBy s.returned j ++ (if j = i then ret else []))
    (hb : pendingOf x ++ new = ret ++ pendingOf y) :
    ∀ (j : Nat) (z : Thread), (s.threads.set i y)[j]? = some z → logged log' j = returnedBy returned' j ++ pendingOf z := by
  intro j z hz
  rw [set_get hi] at hz
  rw [hl, hr]
  by_cases hji : j = i
  · subst hji
    rw [if_pos rfl] at hz
    cases hz
    rw [if_pos rfl, if_pos rfl, h.answers j x hi, List.append_assoc, hb, List.append_assoc]
  · rw [if_neg hji] at hz
    rw [if_neg hji, if_neg hji, List.append_nil, List.append_nil]
    exact h.answers j z hz

theorem belongs_append {t : Target} {log : List (Nat × Request × Op × Answer)} (h : ∀ x ∈ log, Belongs t x.2.1 x.2.2.1)
    {i : Nat} {r : Request} {op : Op} {a : Answer} (hb : Belongs t r op) :
    ∀ x ∈ log ++ [(i, r, op, a)], Belongs t x.2.1 x.2.2.1 := by
  intro x hx
  rcases List.mem_append.1 hx with hx | hx
  · exact h x hx
  · simp only [List.mem_singleton] at hx
    rw [hx]
    exact hb

theorem inv_call {t : Target} {lower : Char → List Char} {s s' : Conc} (h : Inv t lower s) {i : Nat} {r : Request}
    (hc : s.call i r = some s') : Inv t lower s' := by
  unfold Conc.call at hc
  split at hc
  · rename_i hi
    cases hc
    have hi : s.threads[i]? = some (none : Thread) := hi
    have h1 : Thread.owns Stage.ownsIndex (some (r, r.start)) = false := by cases r <;> rfl
    have h2 : Thread.owns Stage.ownsClassic (some (r, r.start)) = false := by cases r <;> rfl
    refine ⟨owned_same h.index hi h1.symm, owned_same h.classic hi h2.symm, ?_, ?_, h.belongs, ?_⟩
    · refine facts_set h hi _ (.inl rfl) ?_
      intro r' st e
      cases e
      cases r <;> exact ⟨_, rfl⟩
    · have := settled_other h hi rfl (s.goto i r r.start) rfl rfl rfl
      rw [this]
      have h3 := settled_classic s
      rw [show ({ (s.goto i r r.start).e with index := s.settled.index } : Engine) = s.settled by
        simp only [Conc.goto]; rw [← h3]]
      exact h.explains
    · refine answers_set h hi _ _ [] [] (by simp [Conc.goto]) (by simp [Conc.goto]) ?_
      cases r <;> rfl
  · cases hc

/-- A step of a thread that neither owns nor takes SHARED_INDEX and records nothing. -/
theorem inv_quiet {t : Target} {lower : Char → List Char} {s s' : Conc} (h : Inv t lower s) {i : Nat} {x y : Thread}
    (hi : s.threads[i]? = some x) (h1 : s'.threads = s.threads.set i y) (h2 : s'.lockIndex = s.lockIndex)
    (h3 : s'.e = s.e) (h4 : s'.log = s.log) (h5 : s'.returned = s.returned)
    (hx : Thread.owns Stage.ownsIndex x = false) (hy : Thread.owns Stage.ownsIndex y = false)
    (hcl : Owned Stage.ownsClassic s'.lockClassic s'.threads)
    (hf : ∀ r st, y = some (r, st) → Stage.Facts t lower s.e.index r st) (hpx : pendingOf x = []) (hpy : pendingOf y = []) :
    Inv t lower s' := by
  refine ⟨?_, hcl, ?_, ?_, by rw [h4]; exact h.belongs, ?_⟩
  · rw [h1, h2]; exact owned_same h.index hi (by rw [hx, hy])
  · rw [h1, h3]; exact facts_set h hi _ (.inl rfl) hf
  · rw [settled_other h hi hx s' h1 h2 (by rw [h3]), h4, h3]
    rw [show ({ s.e with index := s.settled.index } : Engine) = s.settled by simp only; rw [← settled_classic s]]
    exact h.explains
  · rw [h1, h4, h5]
    exact answers_set h hi _ _ [] [] (by simp) (by simp) (by rw [hpx, hpy])

/-- A step of a thread that neither owns nor takes SHARED_INDEX, with an effect that does not touch it, ending the call. -/
theorem inv_effect {t : Target} {lower : Char → List Char} {s s' : Conc} (h : Inv t lower s) {i : Nat} {x : Thread}
    (hi : s.threads[i]? = some x) (r : Request) (op : Op) (a : Answer)
    (h1 : s'.threads = s.threads.set i none) (h2 : s'.lockIndex = s.lockIndex)
    (h3 : s'.e.index = s.e.index) (h4 : s'.log = s.log ++ [(i, r, op, a)]) (h5 : s'.returned = s.returned ++ [(i, r, a)])
    (hx : Thread.owns Stage.ownsIndex x = false) (hpx : pendingOf x = []) (ha : a.final = true)
    (hcl : Owned Stage.ownsClassic s'.lockClassic s'.threads) (hb : Belongs t r op)
    (happ : Op.apply lower s.settled op = ({ s'.e with index := s.settled.index }, a)) : Inv t lower s' := by
  refine ⟨?_, hcl, ?_, ?_, by rw [h4]; exact belongs_append h.belongs hb, ?_⟩
  · rw [h1, h2]; exact owned_same h.index hi (by rw [hx]; rfl)
  · rw [h1, h3]; exact facts_set h hi _ (.inl rfl) (by intro r st e; cases e)
  · rw [settled_other h hi hx s' h1 h2 h3, h4]
    exact .snoc i r h.explains happ
  · rw [h1, h4, h5]
    refine answers_set h hi _ _ [(r, a)] [(r, a)] (fun j => ?_) (fun j => returnedBy_append _ _ _ _ _) ?_
    · rw [logged_append]; simp [ha]
    · rw [hpx]; rfl

/-- The globals after the unwinding that a stage is about to do. -/
def Stage.after (e : Engine) : Stage → Engine
  | .searchUnwind _ => { e with index := e.index.panicked .unwind }
  | _ => e

/-- A step of the thread owning SHARED_INDEX (not unwinding) that records an effect and keeps the lock: the effect is
carried out on the globals as they are. -/
theorem inv_owner {t : Target} {lower : Char → List Char} {s s' : Conc} (h : Inv t lower s) {i : Nat} {r : Request}
    {st st' : Stage} (hi : s.threads[i]? = some (some (r, st))) (ho : st.ownsIndex = true)
    (hu : ∀ w, st ≠ .searchUnwind w) (op : Op) (a : Answer)
    (h1 : s'.threads = s.threads.set i (some (r, st'))) (h2 : s'.lockIndex = s.lockIndex) (h3 : s'.e.index = s.e.index)
    (h4 : s'.log = s.log ++ [(i, r, op, a)]) (h5 : s'.returned = s.returned) (ho' : st'.ownsIndex = true)
    (hpx : st.pending = none) (hpy : st'.pending = some a) (ha : a.final = true)
    (hcl : Owned Stage.ownsClassic s'.lockClassic s'.threads) (hb : Belongs t r op)
    (hf : Stage.Facts t lower s.e.index r st')
    (happ : Op.apply lower s.e op =
      (st'.after s'.e, a)) : Inv t lower s' := by
  have hlock := (h.index i).2 ⟨_, hi, ho⟩
  refine ⟨?_, hcl, ?_, ?_, by rw [h4]; exact belongs_append h.belongs hb, ?_⟩
  · rw [h1, h2]; exact owned_same h.index hi (ho.trans ho'.symm)
  · rw [h1, h3]
    refine facts_set h hi _ (.inl rfl) ?_
    intro r st e
    cases e
    exact hf
  · have hs : s'.settled = st'.after s'.e := by
      unfold Conc.settled
      rw [h2, hlock, h1]
      simp only
      rw [set_get hi, if_pos rfl]
      cases st' <;> rfl
    rw [hs, h4]
    have he := h.explains
    rw [settled_owner h hi ho hu] at he
    exact .snoc i r he happ
  · rw [h1, h4, h5]
    refine answers_set h hi _ _ [(r, a)] [] (fun j => ?_) (fun j => by simp) ?_
    · rw [logged_append]; simp [ha]
    · simp only [pendingOf, hpx, hpy, List.nil_append]

/-- A step of the thread owning SHARED_INDEX (not unwinding) that records nothing and keeps the lock. -/
theorem inv_owner_quiet {t : Target} {lower : Char → List Char} {s s' : Conc} (h : Inv t lower s) {i : Nat} {r : Request}
    {st st' : Stage} (hi : s.threads[i]? = some (some (r, st))) (ho : st.ownsIndex = true)
    (hu : ∀ w, st ≠ .searchUnwind w) (hu' : ∀ w, st' ≠ .searchUnwind w)
    (h1 : s'.threads = s.threads.set i (some (r, st'))) (h2 : s'.lockIndex = s.lockIndex) (h3 : s'.e = s.e)
    (h4 : s'.log = s.log) (h5 : s'.returned = s.returned) (ho' : st'.ownsIndex = true)
    (hpx : st.pending = none) (hpy : st'.pending = none)
    (hcl : Owned Stage.ownsClassic s'.lockClassic s'.threads) (hf : Stage.Facts t lower s.e.index r st') :
    Inv t lower s' := by
  have hlock := (h.index i).2 ⟨_, hi, ho⟩
  have hidx : Owned Stage.ownsIndex s'.lockIndex s'.threads := by
    rw [h1, h2]; exact owned_same h.index hi (ho.trans ho'.symm)
  refine ⟨hidx, hcl, ?_, ?_, by rw [h4]; exact h.belongs, ?_⟩
  · rw [h1, h3]
    refine facts_set h hi _ (.inl rfl) ?_
    intro r st e
    cases e
    exact hf
  · have : s'.settled = s'.e := by
      apply settled_plain
      intro j r' st'' hj hth
      rw [h2, hlock] at hj
      cases hj
      rw [h1, set_get hi, if_pos rfl] at hth
      cases hth
      exact hu'
    rw [this, h3, h4, ← settled_owner h hi ho hu]
    exact h.explains
  · rw [h1, h4, h5]
    exact answers_set h hi _ _ [] [] (by simp) (by simp) (by simp [pendingOf, hpx, hpy])

/-- Taking SHARED_INDEX. -/
theorem inv_take {t : Target} {lower : Char → List Char} {s s' : Conc} (h : Inv t lower s) {i : Nat} {r : Request}
    {st st' : Stage} (hi : s.threads[i]? = some (some (r, st))) (hl : s.lockIndex = none)
    (hu' : ∀ w, st' ≠ .searchUnwind w)
    (h1 : s'.threads = s.threads.set i (some (r, st'))) (h2 : s'.lockIndex = some i) (h3 : s'.e = s.e)
    (h4 : s'.log = s.log) (h5 : s'.returned = s.returned) (h6 : s'.lockClassic = s.lockClassic) (ho' : st'.ownsIndex = true)
    (hpx : st.pending = none) (hpy : st'.pending = none) (hcl : st.ownsClassic = st'.ownsClassic)
    (hf : Stage.Facts t lower s.e.index r st') : Inv t lower s' := by
  have hsett : s.settled = s.e := by unfold Conc.settled; rw [hl]
  refine ⟨?_, ?_, ?_, ?_, by rw [h4]; exact h.belongs, ?_⟩
  · rw [h1, h2]
    have := h.index
    rw [hl] at this
    exact owned_acquire this hi ho'
  · rw [h1, h6]; exact owned_same h.classic hi hcl
  · rw [h1, h3]
    refine facts_set h hi _ (.inl rfl) ?_
    intro r st e
    cases e
    exact hf
  · have : s'.settled = s'.e := by
      apply settled_plain
      intro j r' st'' hj hth
      rw [h2] at hj
      cases hj
      rw [h1, set_get hi, if_pos rfl] at hth
      cases hth
      exact hu'
    rw [this, h3, h4, ← hsett]
    exact h.explains
  · rw [h1, h4, h5]
    exact answers_set h hi _ _ [] [] (by simp) (by simp) (by simp [pendingOf, hpx, hpy])

/-- Dropping SHARED_INDEX and returning the pending answer. -/
theorem inv_drop {t : Target} {lower : Char → List Char} {s s' : Conc} (h : Inv t lower s) {i : Nat} {r : Request}
    {st : Stage} (hi : s.threads[i]? = some (some (r, st))) (ho : st.ownsIndex = true) (a : Answer)
    (h1 : s'.threads = s.threads.set i none) (h2 : s'.lockIndex = none) (h3 : s'.e = s.settled)
    (h4 : s'.log = s.log) (h5 : s'.returned = s.returned ++ [(i, r, a)]) (h6 : s'.lockClassic = s.lockClassic)
    (hpx : st.pending = some a) (hcl : st.ownsClassic = false) : Inv t lower s' := by
  refine ⟨?_, ?_, ?_, ?_, by rw [h4]; exact h.belongs, ?_⟩
  · rw [h1, h2]; exact owned_release h.index hi ho rfl
  · rw [h1, h6]; exact owned_same h.classic hi hcl
  · rw [h1]
    refine facts_set h hi _ (.inr ho) ?_
    intro r st e
    cases e
  · have : s'.settled = s'.e := by unfold Conc.settled; rw [h2]
    rw [this, h3, h4]
    exact h.explains
  · rw [h1, h4, h5]
    refine answers_set h hi _ _ [] [(r, a)] (by simp) (fun j => returnedBy_append _ _ _ _ _) ?_
    simp [pendingOf, hpx]

/-- Effects that do not look at SHARED_INDEX. -/
theorem apply_setClassic (lower : Char → List Char) (s : Conc) (cl : Classic) :
    Op.apply lower s.settled (.setClassic cl) =
      match s.e.classic.lockUnwrap with
      | .error w => ({ s.e with index := s.settled.index }, .panicked w)
      | .ok _ => ({ index := s.settled.index, classic := { s.e.classic with value := some cl } }, .loaded) := by
  simp only [Op.apply, settled_classic]
  split
  · congr 1
    rw [← settled_classic s]
  · rfl

theorem apply_read (lower : Char → List Char) (s : Conc) (k : ReadKind) :
    Op.apply lower s.settled (.read k) = ({ s.e with index := s.settled.index }, k.run s.e) := by
  simp only [Op.apply]
  refine Prod.ext ?_ ?_
  · simp only; rw [← settled_classic s]
  · cases k <;> simp only [ReadKind.run, Engine.getCategories, Engine.getTags, Engine.getOrders, Engine.tagSuggestion,
      settled_classic]

theorem self_index (s : Conc) : ({ s.e with index := s.settled.index } : Engine) = s.settled := by
  simp only; rw [← settled_classic s]

theorem inv_go {t : Target} {lower : Char → List Char} {s s' : Conc} (h : Inv t lower s) {i : Nat}
    (hg : s.go t lower i = some s') : Inv t lower s' := by
  unfold Conc.go at hg
  split at hg
  · cases hg
  · cases hg
  · rename_i r st hi
    have hfacts := h.facts i r st hi
    cases st with
    | initParse =>
      obtain ⟨file, rfl⟩ := hfacts
      simp only at hg
      split at hg
      · rename_i hd
        cases hg
        refine inv_effect h hi (.init file) (.refuse .unwrapNone) (.panicked .unwrapNone) rfl rfl rfl rfl rfl rfl rfl rfl
          (owned_same h.classic hi rfl) (.inl ⟨hd, rfl⟩) ?_
        simp only [Op.apply, Conc.finish, Conc.note, self_index]
      · rename_i w hd
        cases hg
        refine inv_effect h hi (.init file) (.refuse w) (.panicked w) rfl rfl rfl rfl rfl rfl rfl rfl
          (owned_same h.classic hi rfl) (.inr hd) ?_
        simp only [Op.apply, Conc.finish, Conc.note, self_index]
      · rename_i ix cl hd
        cases hg
        refine inv_quiet h hi rfl rfl rfl rfl rfl rfl rfl (owned_same h.classic hi rfl) ?_ rfl rfl
        intro r st e
        cases e
        exact ⟨file, rfl, hd⟩
    | initWaitIndex ix cl =>
      obtain ⟨file, rfl, hd⟩ := hfacts
      simp only at hg
      split at hg
      · rename_i hl
        cases hg
        exact inv_take h hi hl (by simp) rfl rfl rfl rfl rfl rfl rfl rfl rfl rfl ⟨file, rfl, hd⟩
      · cases hg
    | initHoldIndex ix cl =>
      obtain ⟨file, rfl, hd⟩ := hfacts
      have hsett := settled_owner h hi rfl (by simp)
      have hexp := h.explains
      rw [hsett] at hexp
      simp only at hg
      split at hg
      · rename_i w hw
        cases hg
        refine ⟨owned_release h.index hi rfl rfl, owned_same h.classic hi rfl, ?_, ?_, ?_, ?_⟩
        · exact facts_set h hi _ (.inl rfl) (by intro r st e; cases e)
        · exact .snoc i _ hexp (by simp only [Op.apply]; rw [hw]; rfl)
        · exact belongs_append h.belongs ⟨cl, hd⟩
        · refine answers_set h hi _ _ [(_, _)] [(_, _)] (fun j => ?_) (fun j => returnedBy_append _ _ _ _ _) rfl
          simp only [Conc.finish, Conc.note, logged_append]
          simp [Answer.final]
      · rename_i v hv
        cases hg
        refine ⟨owned_release h.index hi rfl rfl, owned_same h.classic hi rfl, ?_, ?_, ?_, ?_⟩
        · refine facts_set h hi _ (.inr rfl) ?_
          intro r st e
          cases e
          exact ⟨file, ix, rfl, hd⟩
        · exact .snoc i _ hexp (by simp only [Op.apply]; rw [hv]; rfl)
        · exact belongs_append h.belongs ⟨cl, hd⟩
        · refine answers_set h hi _ _ [] [] (fun j => ?_) (fun j => by simp [Conc.goto, Conc.note]) rfl
          simp only [Conc.goto, Conc.note, logged_append]
          simp [Answer.final]
    | initWaitClassic cl =>
      obtain ⟨file, ix, rfl, hd⟩ := hfacts
      simp only at hg
      split at hg
      · rename_i hl
        cases hg
        have hcl := h.classic
        rw [hl] at hcl
        refine inv_quiet h hi rfl rfl rfl rfl rfl rfl rfl (owned_acquire hcl hi rfl) ?_ rfl rfl
        intro r st e
        cases e
        exact ⟨file, ix, rfl, hd⟩
      · cases hg
    | initHoldClassic cl =>
      obtain ⟨file, ix, rfl, hd⟩ := hfacts
      have happ := apply_setClassic lower s cl
      simp only at hg
      split at hg
      · rename_i w hw
        cases hg
        rw [hw] at happ
        exact inv_effect h hi (.init file) (.setClassic cl) (.panicked w) rfl rfl rfl rfl rfl rfl rfl rfl
          (owned_release h.classic hi rfl rfl) ⟨ix, hd⟩ happ
      · rename_i v hv
        cases hg
        rw [hv] at happ
        exact inv_effect h hi (.init file) (.setClassic cl) .loaded rfl rfl rfl rfl rfl rfl rfl rfl
          (owned_release h.classic hi rfl rfl) ⟨ix, hd⟩ happ
    | searchParse =>
      obtain ⟨a, rfl⟩ := hfacts
      simp only at hg
      split at hg
      · rename_i hp
        cases hg
        refine inv_effect h hi (.search a) (.search a) (.produced none) rfl rfl rfl rfl rfl rfl rfl rfl
          (owned_same h.classic hi rfl) rfl ?_
        simp only [Op.apply, Engine.search, hp, Conc.finish, Conc.note, self_index]
      · rename_i fs hp
        cases hg
        refine inv_quiet h hi rfl rfl rfl rfl rfl rfl rfl (owned_same h.classic hi rfl) ?_ rfl rfl
        intro r st e
        cases e
        exact ⟨a, rfl, hp⟩
    | searchWaitIndex fs =>
      obtain ⟨a, rfl, hp⟩ := hfacts
      simp only at hg
      split at hg
      · rename_i hl
        cases hg
        exact inv_take h hi hl (by simp) rfl rfl rfl rfl rfl rfl rfl rfl rfl rfl ⟨a, rfl, hp⟩
      · cases hg
    | searchHoldIndex fs =>
      obtain ⟨a, rfl, hp⟩ := hfacts
      simp only at hg
      split at hg
      · rename_i w hw
        cases hg
        refine inv_owner h hi rfl (by simp) (.search a) (.panicked w) rfl rfl rfl rfl rfl rfl rfl rfl rfl
          (owned_same h.classic hi rfl) rfl ⟨a, rfl⟩ ?_
        simp only [Op.apply, Engine.search, hp, hw, Stage.after, Conc.goto, Conc.note]
      · rename_i hw
        cases hg
        refine inv_owner h hi rfl (by simp) (.search a) (.produced none) rfl rfl rfl rfl rfl rfl rfl rfl rfl
          (owned_same h.classic hi rfl) rfl ⟨a, rfl⟩ ?_
        simp only [Op.apply, Engine.search, hp, hw, Stage.after, Conc.goto, Conc.note]
      · rename_i ix hix
        split at hg
        · rename_i w hw
          cases hg
          refine inv_owner h hi rfl (by simp) (.search a) (.panicked w) rfl rfl rfl rfl rfl rfl rfl rfl rfl
            (owned_same h.classic hi rfl) rfl ⟨a, rfl⟩ ?_
          simp only [Op.apply, Engine.search, hp, hix, hw, Stage.after, Conc.goto, Conc.note]
        · rename_i ids hids
          split at hg
          · rename_i hord
            cases hg
            refine inv_owner h hi rfl (by simp) (.search a) (.produced (some (ProductProducer.new ix.container ids))) rfl rfl rfl
              rfl rfl rfl rfl rfl rfl (owned_same h.classic hi rfl) rfl ⟨a, rfl⟩ ?_
            simp only [Op.apply, Engine.search, hp, hix, hids, hord, Stage.after, Conc.goto, Conc.note]
          · rename_i name hord
            cases hg
            refine inv_owner_quiet h hi rfl (by simp) (by simp) rfl rfl rfl rfl rfl rfl rfl rfl (owned_same h.classic hi rfl) ?_
            refine ⟨a, fs, rfl, hp, ?_, hids, hord⟩
            unfold Slot.lockOk at hix
            split at hix
            · rename_i hstate
              injection hix with hix
              rw [← hstate, ← hix]
            · cases hix
            · cases hix
    | searchWaitClassic ix ids name =>
      obtain ⟨a, fs, rfl, hp, hrest⟩ := hfacts
      simp only at hg
      split at hg
      · rename_i hl
        cases hg
        have hcl := h.classic
        rw [hl] at hcl
        exact inv_owner_quiet h hi rfl (by simp) (by simp) rfl rfl rfl rfl rfl rfl rfl rfl (owned_acquire hcl hi rfl)
          ⟨a, fs, rfl, hp, hrest⟩
      · cases hg
    | searchHoldClassic ix ids name =>
      obtain ⟨a, fs, rfl, hp, hix, hids, hord⟩ := hfacts
      have hix' : s.e.index.lockOk = .ok (some ix) := by rw [hix]; rfl
      simp only at hg
      split at hg
      · rename_i w hw
        cases hg
        refine inv_owner h hi rfl (by simp) (.search a) (.panicked w) rfl rfl rfl rfl rfl rfl rfl rfl rfl
          (owned_release h.classic hi rfl rfl) rfl ⟨a, rfl⟩ ?_
        simp only [Op.apply, Engine.search, hp, hix', hids, hord, hw, Stage.after, Conc.goto, Conc.note]
      · rename_i hw
        cases hg
        refine inv_owner h hi rfl (by simp) (.search a) (.produced none) rfl rfl rfl rfl rfl rfl rfl rfl rfl
          (owned_release h.classic hi rfl rfl) rfl ⟨a, rfl⟩ ?_
        simp only [Op.apply, Engine.search, hp, hix', hids, hord, hw, Stage.after, Conc.goto, Conc.note]
      · rename_i cl hcl
        split at hg
        · rename_i hn
          cases hg
          refine inv_owner h hi rfl (by simp) (.search a) (.produced none) rfl rfl rfl rfl rfl rfl rfl rfl rfl
            (owned_release h.classic hi rfl rfl) rfl ⟨a, rfl⟩ ?_
          simp only [Op.apply, Engine.search, hp, hix', hids, hord, hcl, hn, Stage.after, Conc.goto, Conc.note]
        · rename_i ranks hn
          split at hg
          · rename_i w hw
            cases hg
            refine inv_owner h hi rfl (by simp) (.search a) (.panicked w) rfl rfl rfl rfl rfl rfl rfl rfl rfl
              (owned_release h.classic hi rfl rfl) rfl ⟨a, rfl⟩ ?_
            simp only [Op.apply, Engine.search, hp, hix', hids, hord, hcl, hn, hw, Stage.after, Conc.goto, Conc.note]
          · rename_i ids' hw
            cases hg
            refine inv_owner h hi rfl (by simp) (.search a) (.produced (some (ProductProducer.new ix.container ids'))) rfl rfl
              rfl rfl rfl rfl rfl rfl rfl (owned_release h.classic hi rfl rfl) rfl ⟨a, rfl⟩ ?_
            simp only [Op.apply, Engine.search, hp, hix', hids, hord, hcl, hn, hw, Stage.after, Conc.goto, Conc.note]
    | searchReturn p =>
      simp only at hg
      cases hg
      exact inv_drop h hi rfl (.produced p) rfl rfl (settled_owner h hi rfl (by simp)).symm rfl rfl rfl rfl rfl
    | searchUnwind w =>
      simp only at hg
      cases hg
      refine inv_drop h hi rfl (.panicked w) rfl rfl ?_ rfl rfl rfl rfl rfl
      unfold Conc.settled
      rw [(h.index i).2 ⟨_, hi, rfl⟩]
      simp only [hi]
      rfl
    | searchAbort w =>
      simp only at hg
      cases hg
      exact inv_drop h hi rfl (.panicked w) rfl rfl (settled_owner h hi rfl (by simp)).symm rfl rfl rfl rfl rfl
    | readWait =>
      obtain ⟨k, rfl⟩ := hfacts
      simp only at hg
      split at hg
      · rename_i hl
        cases hg
        have hcl := h.classic
        rw [hl] at hcl
        refine inv_quiet h hi rfl rfl rfl rfl rfl rfl rfl (owned_acquire hcl hi rfl) ?_ rfl rfl
        intro r st e
        cases e
        exact ⟨k, rfl⟩
      · cases hg
    | readHold =>
      obtain ⟨k, rfl⟩ := hfacts
      simp only at hg
      cases hg
      refine inv_effect h hi (.read k) (.read k) (k.run s.e) rfl rfl rfl rfl rfl rfl rfl ?_ (owned_release h.classic hi rfl rfl)
        rfl (apply_read lower s k)
      cases k <;> simp only [ReadKind.run] <;> split <;> rfl

theorem inv_reach {t : Target} {lower : Char → List Char} {s : Conc} (h : Conc.Reach t lower s) : Inv t lower s := by
  induction h with
  | start n => exact inv_start t lower n
  | call i r _ hc ih => exact inv_call ih hc
  | go i _ hg ih => exact inv_go ih hg

/-! ## Every call acts at one moment -/

/-- In every interleaving of any number of threads and calls, what happens is explained by carrying out effects one
after the other: every search, suggestion and getter acts as the sequential function at one moment between its start
and its end, and `initialize` acts as its two halves. Each thread gets exactly the answers of its own effects, in order;
the globals are what the effects leave (once a panicking search has finished unwinding). -/
theorem C43_atomic (t : Target) (lower : Char → List Char) (s : Conc) (h : Conc.Reach t lower s) :
    Explains lower s.log s.settled ∧ (∀ x ∈ s.log, Belongs t x.2.1 x.2.2.1) ∧
    (∀ (i : Nat) (y : Thread), s.threads[i]? = some y → logged s.log i = returnedBy s.returned i ++ pendingOf y) ∧
    ((∀ x ∈ s.threads, x = none) → s.settled = s.e ∧ ∀ i, i < s.threads.length → logged s.log i = returnedBy s.returned i) := by
  have inv := inv_reach h
  refine ⟨inv.explains, inv.belongs, inv.answers, fun hidle => ⟨?_, fun i hi => ?_⟩⟩
  · apply settled_plain
    intro i r st _ hth
    exact absurd (hidle _ (List.mem_of_getElem? hth)) (by simp)
  · have hth := List.getElem?_eq_getElem hi
    have hnone := hidle _ (List.getElem_mem hi)
    have := inv.answers i _ hth
    rw [hnone] at this
    simpa [pendingOf] using this

/-! ## No deadlock -/

/-- The thread waits for SHARED_INDEX. -/
def Stage.waitsIndex : Stage → Bool
  | initWaitIndex .. | searchWaitIndex .. => true
  | _ => false

/-- The thread waits for SHARED_CLASSIC_INDEX. -/
def Stage.waitsClassic : Stage → Bool
  | initWaitClassic .. | searchWaitClassic .. | readWait => true
  | _ => false

theorem can_go {t : Target} {lower : Char → List Char} {s : Conc} (h : Inv t lower s) {i : Nat} {r : Request} {st : Stage}
    (hi : s.threads[i]? = some (some (r, st))) (h1 : st.waitsIndex = true → s.lockIndex = none)
    (h2 : st.waitsClassic = true → s.lockClassic = none) : ∃ s', s.go t lower i = some s' := by
  have hf := h.facts i r st hi
  unfold Conc.go
  rw [hi]
  cases st with
  | initParse => obtain ⟨file, rfl⟩ := hf; simp only; split <;> exact ⟨_, rfl⟩
  | initWaitIndex ix cl => simp only [h1 rfl, if_pos]; exact ⟨_, rfl⟩
  | initHoldIndex ix cl => simp only; split <;> exact ⟨_, rfl⟩
  | initWaitClassic cl => simp only [h2 rfl, if_pos]; exact ⟨_, rfl⟩
  | initHoldClassic cl => simp only; split <;> exact ⟨_, rfl⟩
  | searchParse => obtain ⟨a, rfl⟩ := hf; simp only; split <;> exact ⟨_, rfl⟩
  | searchWaitIndex fs => simp only [h1 rfl, if_pos]; exact ⟨_, rfl⟩
  | searchHoldIndex fs =>
    obtain ⟨a, rfl, _⟩ := hf
    simp only
    split
    · exact ⟨_, rfl⟩
    · exact ⟨_, rfl⟩
    · split
      · exact ⟨_, rfl⟩
      · split <;> exact ⟨_, rfl⟩
  | searchWaitClassic ix ids name => simp only [h2 rfl, if_pos]; exact ⟨_, rfl⟩
  | searchHoldClassic ix ids name =>
    obtain ⟨a, fs, rfl, _⟩ := hf
    simp only
    split
    · exact ⟨_, rfl⟩
    · exact ⟨_, rfl⟩
    · split
      · exact ⟨_, rfl⟩
      · split <;> exact ⟨_, rfl⟩
  | searchReturn p => obtain ⟨a, rfl⟩ := hf; exact ⟨_, rfl⟩
  | searchUnwind w => obtain ⟨a, rfl⟩ := hf; exact ⟨_, rfl⟩
  | searchAbort w => obtain ⟨a, rfl⟩ := hf; exact ⟨_, rfl⟩
  | readWait => simp only [h2 rfl, if_pos]; exact ⟨_, rfl⟩
  | readHold => obtain ⟨k, rfl⟩ := hf; exact ⟨_, rfl⟩

/-- In every reachable state with an unfinished call some thread can go on. -/
theorem C43_no_deadlock (t : Target) (lower : Char → List Char) (s : Conc) (h : Conc.Reach t lower s)
    (hb : ∃ x ∈ s.threads, x ≠ none) : ∃ i s', s.go t lower i = some s' := by
  have inv := inv_reach h
  obtain ⟨x, hx, hne⟩ := hb
  obtain ⟨i, hi⟩ := List.getElem?_of_mem hx
  match x, hne with
  | some (r, st), _ =>
    cases hc : s.lockClassic with
    | some j =>
      -- the owner of SHARED_CLASSIC_INDEX never waits
      obtain ⟨y, hy, ho⟩ := (inv.classic j).1 hc
      match y, ho with
      | some (r', st'), ho =>
        obtain ⟨s', hs'⟩ := can_go inv hy (by cases st' <;> simp_all [Thread.owns, Stage.ownsClassic, Stage.waitsIndex])
          (by cases st' <;> simp_all [Thread.owns, Stage.ownsClassic, Stage.waitsClassic])
        exact ⟨j, s', hs'⟩
    | none =>
      cases hl : s.lockIndex with
      | some j =>
        -- the owner of SHARED_INDEX waits at most for SHARED_CLASSIC_INDEX, which is free
        obtain ⟨y, hy, ho⟩ := (inv.index j).1 hl
        match y, ho with
        | some (r', st'), ho =>
          obtain ⟨s', hs'⟩ := can_go inv hy (by cases st' <;> simp_all [Thread.owns, Stage.ownsIndex, Stage.waitsIndex])
            (fun _ => hc)
          exact ⟨j, s', hs'⟩
      | none =>
        obtain ⟨s', hs'⟩ := can_go inv hi (fun _ => hl) (fun _ => hc)
        exact ⟨i, s', hs'⟩

/-- Steps a call may still need. -/
def Stage.rank : Stage → Nat
  | initParse => 5
  | initWaitIndex .. => 4
  | initHoldIndex .. => 3
  | initWaitClassic .. => 2
  | initHoldClassic .. => 1
  | searchParse => 6
  | searchWaitIndex .. => 5
  | searchHoldIndex .. => 4
  | searchWaitClassic .. => 3
  | searchHoldClassic .. => 2
  | searchReturn .. | searchUnwind .. | searchAbort .. => 1
  | readWait => 2
  | readHold => 1

def Thread.rank : Thread → Nat
  | none => 0
  | some (_, st) => st.rank

/-- Steps all running calls may still need together. -/
def Conc.work (s : Conc) : Nat := (s.threads.map Thread.rank).sum

theorem sum_set_lt {threads : List Thread} : ∀ {i : Nat} {x y : Thread}, threads[i]? = some x → y.rank < x.rank →
    ((threads.set i y).map Thread.rank).sum < (threads.map Thread.rank).sum := by
  induction threads with
  | nil => intro i x y h; simp at h
  | cons a l ih =>
    intro i x y h hlt
    cases i with
    | zero => simp only [List.getElem?_cons_zero, Option.some.injEq] at h; subst h; simp; omega
    | succ i =>
      simp only [List.getElem?_cons_succ] at h
      have := ih h hlt
      simp only [List.set_cons_succ, List.map_cons, List.sum_cons]
      omega

theorem go_thread {t : Target} {lower : Char → List Char} {s s' : Conc} {i : Nat} (hg : s.go t lower i = some s') :
    ∃ x y : Thread, s.threads[i]? = some x ∧ s'.threads = s.threads.set i y ∧ y.rank < x.rank := by
  have done : ∀ {s' : Conc} {r : Request} {st : Stage} (y : Thread), s.threads[i]? = some (some (r, st)) →
      s'.threads = s.threads.set i y → y.rank < st.rank →
      ∃ x y : Thread, s.threads[i]? = some x ∧ s'.threads = s.threads.set i y ∧ y.rank < x.rank :=
    fun y h1 h2 h3 => ⟨_, y, h1, h2, h3⟩
  unfold Conc.go at hg
  split at hg
  · cases hg
  · cases hg
  · rename_i r st hi
    split at hg
    · split at hg
      all_goals (cases hg; refine done _ hi rfl ?_; simp [Thread.rank, Stage.rank])
    · split at hg
      · cases hg; refine done _ hi rfl ?_; simp [Thread.rank, Stage.rank]
      · cases hg
    · simp only at hg
      split at hg
      all_goals (cases hg; refine done _ hi rfl ?_; simp [Thread.rank, Stage.rank])
    · split at hg
      · cases hg; refine done _ hi rfl ?_; simp [Thread.rank, Stage.rank]
      · cases hg
    · simp only at hg
      split at hg
      all_goals (cases hg; refine done _ hi rfl ?_; simp [Thread.rank, Stage.rank])
    · split at hg
      all_goals (cases hg; refine done _ hi rfl ?_; simp [Thread.rank, Stage.rank])
    · split at hg
      · cases hg; refine done _ hi rfl ?_; simp [Thread.rank, Stage.rank]
      · cases hg
    · split at hg
      · cases hg; refine done _ hi rfl ?_; simp [Thread.rank, Stage.rank]
      · cases hg; refine done _ hi rfl ?_; simp [Thread.rank, Stage.rank]
      · split at hg
        · cases hg; refine done _ hi rfl ?_; simp [Thread.rank, Stage.rank]
        · split at hg
          all_goals (cases hg; refine done _ hi rfl ?_; simp [Thread.rank, Stage.rank])
    · split at hg
      · cases hg; refine done _ hi rfl ?_; simp [Thread.rank, Stage.rank]
      · cases hg
    · simp only at hg
      split at hg
      · cases hg; refine done _ hi rfl ?_; simp [Thread.rank, Stage.rank]
      · cases hg; refine done _ hi rfl ?_; simp [Thread.rank, Stage.rank]
      · split at hg
        · cases hg; refine done _ hi rfl ?_; simp [Thread.rank, Stage.rank]
        · split at hg
          all_goals (cases hg; refine done _ hi rfl ?_; simp [Thread.rank, Stage.rank])
    · cases hg; refine done _ hi rfl ?_; simp [Thread.rank, Stage.rank]
    · cases hg; refine done _ hi rfl ?_; simp [Thread.rank, Stage.rank]
    · cases hg; refine done _ hi rfl ?_; simp [Thread.rank, Stage.rank]
    · split at hg
      · cases hg; refine done _ hi rfl ?_; simp [Thread.rank, Stage.rank]
      · cases hg
    · simp only at hg
      cases hg; refine done _ hi rfl ?_; simp [Thread.rank, Stage.rank]
    · cases hg

theorem go_work {t : Target} {lower : Char → List Char} {s s' : Conc} {i : Nat} (hg : s.go t lower i = some s') :
    s'.work < s.work := by
  obtain ⟨x, y, h1, h2, h3⟩ := go_thread hg
  unfold Conc.work
  rw [h2]
  exact sum_set_lt h1 h3

/-- Steps without new calls. -/
inductive Conc.Steps (t : Target) (lower : Char → List Char) : Conc → Nat → Conc → Prop where
  | refl (s : Conc) : Steps t lower s 0 s
  | step {s s' s'' : Conc} {n : Nat} (i : Nat) : s.go t lower i = some s' → Steps t lower s' n s'' → Steps t lower s (n + 1) s''

/-- Whatever the scheduler does, the running calls finish after at most `work` steps: no schedule is longer, and every
schedule that cannot go on has finished all of them. -/
theorem C43_finishes (t : Target) (lower : Char → List Char) (s : Conc) (h : Conc.Reach t lower s) :
    (∀ n s', Conc.Steps t lower s n s' → n ≤ s.work ∧ Conc.Reach t lower s' ∧
      ((∀ i, s'.go t lower i = none) → ∀ x ∈ s'.threads, x = none)) ∧
    ∃ n s', Conc.Steps t lower s n s' ∧ ∀ x ∈ s'.threads, x = none := by
  constructor
  · intro n s' hs
    induction hs with
    | refl s =>
      refine ⟨Nat.zero_le _, h, fun hstuck x hx => ?_⟩
      match x with
      | none => rfl
      | some y =>
        obtain ⟨i, s', hg⟩ := C43_no_deadlock t lower s h ⟨some y, hx, by simp⟩
        rw [hstuck i] at hg
        cases hg
    | step i hg _ ih =>
      obtain ⟨h1, h2⟩ := ih (.go i h hg)
      have := go_work hg
      exact ⟨by omega, h2⟩
  · have : ∀ (k : Nat) (s : Conc), s.work = k → Conc.Reach t lower s →
        ∃ n s', Conc.Steps t lower s n s' ∧ ∀ x ∈ s'.threads, x = none := by
      intro k
      induction k using Nat.strongRecOn with
      | _ k ih =>
        intro s hk h
        by_cases hb : ∃ x ∈ s.threads, x ≠ none
        · obtain ⟨i, s', hg⟩ := C43_no_deadlock t lower s h hb
          obtain ⟨n, s'', h1, h2⟩ := ih s'.work (by rw [← hk]; exact go_work hg) s' rfl (.go i h hg)
          exact ⟨n + 1, s'', .step i hg h1, h2⟩
        · refine ⟨0, s, .refl s, fun x hx => ?_⟩
          match x with
          | none => rfl
          | some y => exact absurd ⟨some y, hx, by simp⟩ hb
    exact this _ s rfl h

end Idx
