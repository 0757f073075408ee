import Verif.Lemmas.ArenaCost
import Verif.Props.Reload
import Verif.Lemmas.Run

/-! C88: loading through references into the arenas is loading values, at any point of the life of the process; what was
loaded keeps its meaning; and what the arenas hold on to. -/

namespace Idx

theorem Memory.Wf.empty : Memory.empty.Wf := by
  intro a c h
  simp [Memory.empty] at h

theorem load_wf {t : Target} {n : Nat} {m : Memory} (h : m.Wf) (file : Bytes) :
    m.Le (m.load t n file).1 ∧ (m.load t n file).1.Wf := by
  have := ldAll_sim t n m h file
  exact ⟨this.1, this.2.1⟩

theorem loads_wf {t : Target} {n : Nat} : ∀ (files : List Bytes) {m : Memory}, m.Wf →
    m.Le (m.loads t n files) ∧ (m.loads t n files).Wf := by
  intro files
  induction files with
  | nil => intro m h; exact ⟨Memory.Le.refl _, h⟩
  | cons f files ih =>
    intro m h
    obtain ⟨h1, h2⟩ := load_wf (t := t) (n := n) h f
    obtain ⟨h3, h4⟩ := ih h2
    exact ⟨h1.trans h3, h4⟩

theorem loads_append (t : Target) (n : Nat) (m : Memory) (fs gs : List Bytes) :
    m.loads t n (fs ++ gs) = (m.loads t n fs).loads t n gs := by
  unfold Memory.loads
  rw [List.foldl_append]

/-- The outcome of a load with what is listed in the file. -/
theorem load_listed (t : Target) (n : Nat) {m : Memory} (h : m.Wf) (file : Bytes) :
    match (m.load t n file).2, deAllListed t n file with
    | .ok r, .ok (_, p) => (m.load t n file).1.gramIndex r.1 = some p.2.1 ∧ (m.load t n file).1.classic r.2 = some p.2.2 ∧
        (m.load t n file).1.nodes.length = m.nodes.length + (p.1.map fun e => e.2.nodes).sum
    | .none, .none => True
    | .panic w, .panic w' => w = w'
    | _, _ => False := by
  have h1 := (ldAll_sim t n m h file).2.2
  unfold Memory.load
  simp only
  revert h1
  cases (ldAll t n m file).2 with
  | ok x => cases deAllListed t n file with
    | ok y => exact fun h => h.2
    | none => exact id
    | panic w => exact id
  | none => cases deAllListed t n file <;> exact id
  | panic w => cases deAllListed t n file <;> exact id

theorem deserializeAll_listed (t : Target) (n : Nat) (file : Bytes) :
    deserializeAll t n file = (deAllListed t n file >>= fun r => .ok r.2.2) := by
  rw [deserializeAll_eq, deBoth_listed, De.bind_apply]
  cases deAllListed t n file <;> rfl

/-- **C88.** Whatever was loaded or refused before: loading a file into the arenas has the outcome of decoding it by value,
and the references handed out mean exactly the decoded indexes. -/
theorem C88_load (t : Target) (n : Nat) (before : List Bytes) (file : Bytes) :
    match ((Memory.empty.loads t n before).load t n file).2, deserializeAll t n file with
    | .ok (ix, cl), .ok (index, classic) =>
        (Memory.empty.loads t n (before ++ [file])).gramIndex ix = some index ∧
        (Memory.empty.loads t n (before ++ [file])).classic cl = some classic
    | .none, .none => True
    | .panic w, .panic w' => w = w'
    | _, _ => False := by
  have h := load_listed t n (loads_wf (t := t) (n := n) before Memory.Wf.empty).2 file
  rw [deserializeAll_listed, loads_append]
  show match ((Memory.empty.loads t n before).load t n file).2, (deAllListed t n file >>= fun r => Res.ok r.2.2) with
    | .ok (ix, cl), .ok (index, classic) =>
        ((Memory.empty.loads t n before).load t n file).1.gramIndex ix = some index ∧
        ((Memory.empty.loads t n before).load t n file).1.classic cl = some classic
    | .none, .none => True
    | .panic w, .panic w' => w = w'
    | _, _ => False
  revert h
  cases ((Memory.empty.loads t n before).load t n file).2 with
  | ok x => cases deAllListed t n file with
    | ok y => exact fun h => ⟨h.1, h.2.1⟩
    | none => exact id
    | panic w => exact id
  | none => cases deAllListed t n file <;> exact id
  | panic w => cases deAllListed t n file <;> exact id

/-- What was handed out for a file means the indexes of that file for good: later loads, good or bad, do not touch it. -/
theorem C88_kept {t : Target} {n : Nat} {before : List Bytes} {file : Bytes} {ix : IndexRef} {cl : ClassicRef}
    (h : ((Memory.empty.loads t n before).load t n file).2 = .ok (ix, cl)) (after : List Bytes) :
    ∃ index classic, deserializeAll t n file = .ok (index, classic) ∧
      (Memory.empty.loads t n (before ++ file :: after)).gramIndex ix = some index ∧
      (Memory.empty.loads t n (before ++ file :: after)).classic cl = some classic := by
  have h1 := C88_load t n before file
  rw [h] at h1
  cases hd : deserializeAll t n file with
  | none => rw [hd] at h1; exact h1.elim
  | panic w => rw [hd] at h1; exact h1.elim
  | ok r =>
    obtain ⟨index, classic⟩ := r
    rw [hd] at h1
    have hle := (loads_wf (t := t) (n := n) after (loads_wf (t := t) (n := n) (before ++ [file]) Memory.Wf.empty).2).1
    rw [← loads_append, List.append_assoc] at hle
    exact ⟨index, classic, rfl, Memory.gramIndex_mono hle h1.1, Memory.classic_mono hle h1.2⟩

/-- A product reference, such as a producer keeps, shows the same product after any further loads. -/
theorem C88_product {t : Target} {n : Nat} {before : List Bytes} {r : ProductRef} {p : Product}
    (h : (Memory.empty.loads t n before).product r = some p) (after : List Bytes) :
    (Memory.empty.loads t n (before ++ after)).product r = some p := by
  rw [loads_append]
  exact Memory.product_mono (loads_wf after (loads_wf before Memory.Wf.empty).2).1 h

/-- Nothing in the node arena dangles or runs in a circle, not even what a refused load left there. -/
theorem C88_nodes (t : Target) (n : Nat) (files : List Bytes) (a : Nat) (c : NodeCell)
    (h : (Memory.empty.loads t n files).nodes[a]? = some c) :
    (∃ tree, (Memory.empty.loads t n files).node a = some tree) ∧ (∀ k ∈ c.byOcc, k < a) ∧
    (∀ ch k, AMap.get c.items ch = some k → k ∈ c.byOcc ∧
      ((Memory.empty.loads t n files).nodes[k]?.map fun k => k.item) = some ch) ∧
    (∀ k ∈ c.byOcc, ∀ kid, (Memory.empty.loads t n files).nodes[k]? = some kid → ∃ k', AMap.get c.items kid.item = some k') := by
  have hwf := (loads_wf (t := t) (n := n) files Memory.Wf.empty).2
  have hle := (List.getElem?_eq_some_iff.1 h).1
  obtain ⟨h1, h2⟩ := hwf a c h
  generalize Memory.empty.loads t n files = m at h hwf hle h1 h2 ⊢
  refine ⟨hwf.node (a + 1) a (by omega) hle, h1, fun ch k hg => ?_, fun k hk kid hkid => ?_⟩
  · rw [h2] at hg
    obtain ⟨k', hk', e⟩ := List.mem_map.1 (AMap.mem_of_mem_collect (AMap.mem_of_get hg))
    simp only [Prod.mk.injEq] at e
    obtain ⟨e1, rfl⟩ := e
    refine ⟨hk', ?_⟩
    have hlt : k' < m.nodes.length := Nat.lt_trans (h1 _ hk') hle
    rw [← e1]
    unfold Memory.itemAt
    rw [List.getElem?_eq_getElem hlt]
    rfl
  · rw [h2, AMap.get_collect]
    refine Option.isSome_iff_exists.1 ((AMap.get_isSome_iff _ _).2 ?_)
    rw [List.map_reverse, List.mem_reverse, List.map_map]
    refine List.mem_map.2 ⟨k, hk, ?_⟩
    show m.itemAt k = kid.item
    unfold Memory.itemAt
    rw [hkid]; rfl

/-- Every load, even of an empty or damaged file, takes at least one box and at most two, and at most one node for six bytes;
none of it is ever given back. -/
theorem C88_cost (t : Target) (n : Nat) (files : List Bytes) :
    6 * (Memory.empty.loads t n files).nodes.length ≤ (files.map List.length).sum ∧
    files.length ≤ (Memory.empty.loads t n files).boxes.length ∧
    (Memory.empty.loads t n files).boxes.length ≤ 2 * files.length := by
  suffices ∀ m : Memory, 6 * (m.loads t n files).nodes.length ≤ 6 * m.nodes.length + (files.map List.length).sum ∧
      m.boxes.length + files.length ≤ (m.loads t n files).boxes.length ∧
      (m.loads t n files).boxes.length ≤ m.boxes.length + 2 * files.length by
    simpa [Memory.empty] using this Memory.empty
  induction files with
  | nil => intro m; simp [Memory.loads]
  | cons f files ih =>
    intro m
    have h1 := ih (m.load t n f).1
    obtain ⟨h2, h3, h4⟩ := frugal_all t n m f
    have h5 := starts_all t n m f
    have h6 : 6 * (ldAll t n m f).1.nodes.length ≤ 6 * m.nodes.length + f.length := by
      revert h4
      cases (ldAll t n m f).2 with
      | ok y => simp only; intro h4; omega
      | none => simp only; intro h4; omega
      | panic w => simp only; intro h4; omega
    have h7 : m.loads t n (f :: files) = ((m.load t n f).1).loads t n files := rfl
    have h8 : (m.load t n f).1 = (ldAll t n m f).1 := rfl
    rw [h7]
    rw [h8] at h1 ⊢
    simp only [List.map_cons, List.sum_cons, List.length_cons]
    omega

theorem roots_listed {t : Target} (o : HashOrd) (ix : GramIndex Char)
    (hf : Fits t (serMap o "roots" serChar serNode ix.roots).length) :
    RT (serMap o "roots" serChar serNode ix.roots) (deRootList t) (o.order "roots" ix.roots) := by
  have hlen : (serMap o "roots" serChar serNode ix.roots).length = (serUsize (o.order "roots" ix.roots).length).length +
      ((o.order "roots" ix.roots).flatMap fun p => serChar p.1 ++ serNode p.2).length := by
    simp [serMap, serMapEntries]
  have h1 : (o.order "roots" ix.roots).length ≤
      ((o.order "roots" ix.roots).flatMap fun p => serChar p.1 ++ serNode p.2).length := by
    apply length_flatMap_ge
    intro p _
    have : 1 ≤ (serChar p.1).length := serU64Loop_pos 9 _
    simp only [List.length_append]; omega
  refine RT.bind (deLen_rt (hf.mono (by omega)) _) ?_
  have := times_rt (ser := fun p : Char × GramNode Char => serChar p.1 ++ serNode p.2)
    (de := deChar >>= fun k => deNodeTop t >>= fun v => pure (k, v)) (f := id) (o.order "roots" ix.roots) fun p hp => by
      refine RT.bind (deChar_rt _) ?_
      have hle := length_le_flatMap (ser := fun p : Char × GramNode Char => serChar p.1 ++ serNode p.2) hp
      simp only [List.length_append] at hle
      exact RT.bind_pure (f := fun v => (p.1, v)) (deNodeTop_fit p.2 (hf.mono (by omega)))
  rwa [List.map_id] at this

/-- Loading a file the indexer wrote takes exactly one node for each different text of up to N characters that occurs in the
catalogue, and two boxes, whatever is in the arenas already. -/
theorem C88_written {t : Target} {o : HashOrd} {lower : Char → List Char} {parse : Str → Option F32} {n : Nat}
    {input : List RawProduct} {file : Bytes} (hn : 1 ≤ n) (h : indexAndSerialize t o lower parse n input = .ok file)
    (substrings : List (List Char)) (hnd : substrings.Nodup)
    (hs : ∀ s, s ∈ substrings ↔ s ≠ [] ∧ s.length ≤ n ∧ ∃ raw ∈ input, s <:+: textOf lower raw)
    (t' : Target) (hf : Fits t' file.length) (before : List Bytes) :
    (Memory.empty.loads t' n (before ++ [file])).nodes.length =
      (Memory.empty.loads t' n before).nodes.length + substrings.length ∧
    (Memory.empty.loads t' n (before ++ [file])).boxes.length = (Memory.empty.loads t' n before).boxes.length + 2 := by
  obtain ⟨ix, cl, hb, rfl⟩ := indexAndSerialize_ok h
  have hg := gramWf_of_built hn hb
  have hd := deserializeAll_fit o hg (classicWf_of_built hb) hf []
  rw [List.append_nil, deserializeAll_listed] at hd
  obtain ⟨⟨rest, p⟩, hp, _⟩ := Res.bind_eq_ok.1 hd
  have hroots : p.1 = o.order "roots" ix.roots := by
    unfold deAllListed at hp
    rw [De.bind_apply] at hp
    obtain ⟨⟨r1, q⟩, h1, h2⟩ := Res.bind_eq_ok.1 hp
    rw [De.bind_apply] at h2
    obtain ⟨⟨r2, c⟩, _, h3⟩ := Res.bind_eq_ok.1 h2
    simp only [De.pure_apply, Res.ok.injEq, Prod.mk.injEq] at h3
    rw [← h3.2]
    have e : serializeAll o ix cl = serContainer o ix.container ++ (serMap o "roots" serChar serNode ix.roots ++
        ((serUsize ix.data.length ++ (o.order "data" ix.data).flatMap serPosting) ++ serClassic o cl)) := by
      simp [serializeAll, serGramIndex, List.append_assoc]
    have hl : (serContainer o ix.container).length + (serMap o "roots" serChar serNode ix.roots).length ≤
        (serializeAll o ix cl).length := by
      rw [e]; simp only [List.length_append]; omega
    rw [e] at h1
    unfold deListed at h1
    rw [De.bind_of_ok (deContainer_fit o hg.container (hf.mono (by omega)) _),
      De.bind_of_ok (roots_listed o ix (hf.mono (by omega)) _), De.bind_apply] at h1
    obtain ⟨⟨r3, len⟩, _, h4⟩ := Res.bind_eq_ok.1 h1
    rw [De.bind_apply] at h4
    obtain ⟨⟨r4, es⟩, _, h5⟩ := Res.bind_eq_ok.1 h4
    simp only [De.pure_apply, Res.ok.injEq, Prod.mk.injEq] at h5
    rw [← h5.2]
  have hl := load_listed t' n (loads_wf (t := t') (n := n) before Memory.Wf.empty).2 (serializeAll o ix cl)
  rw [hp] at hl
  have hsum : ((o.order "roots" ix.roots).map fun e => e.2.nodes).sum = substrings.length := by
    rw [← C80_nodes hn hb substrings hnd hs]
    exact ((o.perm "roots" ix.roots).map _).sum_nat
  rw [loads_append]
  generalize Memory.empty.loads t' n before = m at hl ⊢
  have hm : m.loads t' n [serializeAll o ix cl] = (m.load t' n (serializeAll o ix cl)).1 := rfl
  rw [hm]
  cases hx : (m.load t' n (serializeAll o ix cl)).2 with
  | none => rw [hx] at hl; exact hl.elim
  | panic w => rw [hx] at hl; exact hl.elim
  | ok x =>
    rw [hx] at hl
    refine ⟨by rw [hl.2.2, hroots, hsum], ?_⟩
    obtain ⟨y, hy, _⟩ := Res.bind_eq_ok.1 (show ((ldAll t' n m (serializeAll o ix cl)).2 >>= fun x => Res.ok x.2) = .ok x from hx)
    have h1 := stores_all t' n m _ _ hy
    have h2 := (frugal_all t' n m (serializeAll o ix cl)).2.1
    have h3 : (m.load t' n (serializeAll o ix cl)).1 = (ldAll t' n m (serializeAll o ix cl)).1 := rfl
    rw [h3]
    omega

/-- So calling `initialize` again and again with the same file fills the memory: nothing is shared and nothing given back. -/
theorem C88_leak {t : Target} {o : HashOrd} {lower : Char → List Char} {parse : Str → Option F32} {n : Nat}
    {input : List RawProduct} {file : Bytes} (hn : 1 ≤ n) (h : indexAndSerialize t o lower parse n input = .ok file)
    (substrings : List (List Char)) (hnd : substrings.Nodup)
    (hs : ∀ s, s ∈ substrings ↔ s ≠ [] ∧ s.length ≤ n ∧ ∃ raw ∈ input, s <:+: textOf lower raw)
    (t' : Target) (hf : Fits t' file.length) (k : Nat) :
    (Memory.empty.loads t' n (List.replicate k file)).nodes.length = k * substrings.length ∧
    (Memory.empty.loads t' n (List.replicate k file)).boxes.length = k * 2 := by
  induction k with
  | zero => simp [Memory.loads, Memory.empty]
  | succ k ih =>
    have h1 := C88_written hn h substrings hnd hs t' hf (List.replicate k file)
    rw [List.replicate_succ', h1.1, h1.2, ih.1, ih.2, Nat.add_mul, Nat.add_mul]
    omega

/-! ## Cases -/

/-- The file of "aba" meets the hypotheses of `C88_written` and `C88_leak`: three loads leave twelve nodes. -/
example : ∃ file, indexAndSerialize .debug64 .ident (fun c => [c]) parseOne 2 aba = .ok file ∧
    (Memory.empty.loads .wasm32 2 [file, file, file]).nodes.length = 12 ∧
    (Memory.empty.loads .wasm32 2 [file, file, file]).boxes.length = 6 := by
  have h : ((runFile .debug64 parseOne 2 aba).map fun b => decide (b.length < 1000)) = some true := by decide +kernel
  obtain ⟨file, h1, h2⟩ := Option.map_eq_some_iff.1 h
  obtain ⟨_, _, _, _, hw⟩ := runFile_sound (by decide) (by decide) h1
  have hl : file.length < 1000 := of_decide_eq_true h2
  have hf : Fits .wasm32 file.length := .of_carried (by simp only [Carried]; omega) fun _ _ => rfl
  exact ⟨file, hw, C88_leak (by decide) hw _ (by decide) aba_substrings .wasm32 hf 3⟩

/-- What a run of loads leaves behind, and which loads were good. -/
def traceLoads (t : Target) (n : Nat) : Memory → List Bytes → List (Bool × Nat × Nat)
  | _, [] => []
  | m, f :: fs =>
    let r := m.load t n f
    ((match r.2 with | .ok _ => true | _ => false), r.1.nodes.length, r.1.boxes.length) :: traceLoads t n r.1 fs

/-- An empty file is refused and leaves a box; a file cut off after its first tree is refused and leaves both boxes and the two
nodes it had read; a whole file after them is loaded. -/
example : traceLoads .wasm32 2 .empty [[], [0, 0, 0, 1, 97, 97, 0, 0, 128, 63, 1, 98, 0, 0, 0, 64, 0],
    [0, 0, 0, 1, 97, 97, 0, 0, 128, 63, 1, 98, 0, 0, 0, 64, 0, 0, 0, 0, 0]] =
    [(false, 0, 1), (false, 2, 3), (true, 4, 5)] := by decide +kernel

/-- The hypothesis of `C88_kept` is met, and what was loaded is still a tree with a child after a damaged file. -/
example : ∃ ix cl, ((Memory.empty.loads .wasm32 2 [[]]).load .wasm32 2
      [0, 0, 0, 1, 97, 97, 0, 0, 128, 63, 1, 98, 0, 0, 0, 64, 0, 0, 0, 0, 0]).2 = .ok (ix, cl) ∧ ix.roots = [('a', 1)] := by
  refine ⟨_, _, rfl, ?_⟩
  decide +kernel

end Idx
