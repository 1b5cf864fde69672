import Verif.Scope.SymbolLemmas
/-!
# C27: symbol resolution is lexical scoping
-/
namespace Verif.Scope

/-- Well-formed stacks: what the client contract maintains. -/
structure StackWF (st : List Frame) : Prop where
  len : st.length ≤ 65535
  regions : (st.map Frame.region).Nodup
  nodes : ((flat st).map (·.2.2)).Nodup
  names : ∀ f ∈ st, (f.binds.map Prod.fst).Nodup

/-- The table represents the stack of regions. -/
def SymRep (t : SymbolTable) (st : List Frame) : Prop :=
  t.symbols = (build (flat st)).1 ∧ t.bindings = (build (flat st)).2 ∧ t.scopes = scopesOf st ∧
    StackWF st

theorem scopesOf_length (st : List Frame) : (scopesOf st).length = st.length := by
  induction st with
  | nil => rfl
  | cons f st ih => simp [scopesOf, ih]

theorem scopesOf_regions (st : List Frame) :
    (scopesOf st).map Prod.fst = st.reverse.map Frame.region := by
  induction st with
  | nil => rfl
  | cons f st ih =>
    rw [scopesOf, List.map_append, ih]; simp

theorem imFind_idxOf {K V : Type} [DecidableEq K] (l : List (K × V)) (k : K) :
    (imFind l k).map (·.1) = (l.map Prod.fst).idxOf? k := by
  induction l with
  | nil => rfl
  | cons e l ih =>
    obtain ⟨a, b⟩ := e
    by_cases h : a = k
    · simp [imFind, h, List.idxOf?_cons]
    · simp [imFind, h, List.idxOf?_cons, ← ih, Option.map_map, Function.comp_def]

theorem flat_nodes (st : List Frame) (n : Nat) :
    n ∈ (flat st).map (·.2.2) ↔ n ∈ (st.flatMap (·.binds)).map Prod.snd := by
  induction st with
  | nil => simp [flat]
  | cons f st ih =>
    simp only [flat, List.map_append, List.mem_append, ih, List.flatMap_cons, List.map_map]
    simp [Function.comp_def, or_comm]

theorem flat_depth (st : List Frame) : ∀ x ∈ flat st, x.1 < st.length := by
  induction st with
  | nil => simp [flat]
  | cons f st ih =>
    intro x hx
    rcases List.mem_append.1 hx with hx | hx
    · have := ih x hx; simp; omega
    · obtain ⟨p, _, rfl⟩ := List.mem_map.1 hx; simp

theorem lastIdx_get (F : List FlatBind) (s : String) (j : Nat) (h : lastIdx F s = some j) :
    ∃ x, F[j]? = some x ∧ x.2.1 = s := by
  induction F generalizing j with
  | nil => simp [lastIdx] at h
  | cons y F ih =>
    simp only [lastIdx] at h
    cases hl : lastIdx F s with
    | some i =>
      rw [hl] at h
      simp only [Option.some.injEq] at h
      subst h
      simpa using ih i hl
    | none =>
      rw [hl] at h
      by_cases hy : y.2.1 = s
      · simp only [hy, if_true, Option.some.injEq] at h
        subst h
        exact ⟨y, rfl, hy⟩
      · simp [hy] at h

theorem lastIdx_none (F : List FlatBind) (s : String) :
    lastIdx F s = none ↔ ∀ x ∈ F, x.2.1 ≠ s := by
  induction F with
  | nil => simp [lastIdx]
  | cons y F ih =>
    simp only [lastIdx]
    cases hl : lastIdx F s with
    | some i =>
      have := mt ih.2 (by simp [hl])
      simp only [List.mem_cons, forall_eq_or_imp, reduceCtorEq, false_iff, not_and]
      intro _; exact this
    | none =>
      have := ih.1 hl
      by_cases hy : y.2.1 = s
      · simp [hy]
      · simp [hy]; simpa using this

theorem lastIdx_last (F : List FlatBind) (s : String) (i j : Nat) (x : FlatBind)
    (h : lastIdx F s = some j) (hx : F[i]? = some x) (hs : x.2.1 = s) : i ≤ j := by
  induction F generalizing i j with
  | nil => simp at hx
  | cons y F ih =>
    simp only [lastIdx] at h
    cases i with
    | zero => omega
    | succ i =>
      simp only [List.getElem?_cons_succ] at hx
      cases hl : lastIdx F s with
      | some k =>
        rw [hl] at h
        simp only [Option.some.injEq] at h
        have := ih i k hl hx
        omega
      | none =>
        have := (lastIdx_none F s).1 hl x (List.mem_of_getElem? hx)
        exact absurd hs this

/-- Looking a name up in one region's bindings. -/
theorem lastIdx_block (d : Nat) (bs : List (String × Nat)) (s : String)
    (h : (bs.map Prod.fst).Nodup) :
    (lastIdx (bs.map fun p => (d, p.1, p.2)) s).bind
        (fun j => ((bs.map fun p => (d, p.1, p.2))[j]?).map (·.2.2)) =
      (bs.find? (·.1 = s)).map (·.2) := by
  induction bs with
  | nil => simp [lastIdx]
  | cons p bs ih =>
    simp only [List.map_cons, List.nodup_cons] at h
    have ih := ih h.2
    simp only [List.map_cons, lastIdx]
    by_cases hp : p.1 = s
    · have hn : lastIdx (bs.map fun p => (d, p.1, p.2)) s = none := by
        rw [lastIdx_none]
        intro x hx
        obtain ⟨q, hq, rfl⟩ := List.mem_map.1 hx
        intro hqs
        exact h.1 (by rw [hp, ← hqs]; exact List.mem_map.2 ⟨q, hq, rfl⟩)
      simp [hn, hp]
    · rw [List.find?_cons_of_neg (by simpa using hp), ← ih]
      cases lastIdx (bs.map fun p => (d, p.1, p.2)) s <;> simp [hp]

theorem find_none_iff (f : Frame) (d : Nat) (s : String) :
    lastIdx (f.binds.map fun p => (d, p.1, p.2)) s = none ↔ f.find s = none := by
  rw [lastIdx_none]
  simp only [Frame.find, Option.map_eq_none_iff, List.find?_eq_none, decide_eq_true_eq]
  constructor
  · intro h p hp
    exact h (d, p.1, p.2) (List.mem_map.2 ⟨p, hp, rfl⟩)
  · intro h x hx
    obtain ⟨p, hp, rfl⟩ := List.mem_map.1 hx
    exact h p hp

/-- The table finds what lexical scoping prescribes. -/
theorem lookup_flat (st : List Frame) (s : String) (h : ∀ f ∈ st, (f.binds.map Prod.fst).Nodup) :
    SymSpec.lookup st s =
      (lastIdx (flat st) s).bind (fun j => ((flat st)[j]?).map (·.2.2)) := by
  induction st with
  | nil => simp [SymSpec.lookup, flat, lastIdx]
  | cons f st ih =>
    have ih := ih (fun g hg => h g (List.mem_cons_of_mem _ hg))
    have hb := lastIdx_block st.length f.binds s (h f (List.mem_cons_self ..))
    have hb : _ = f.find s := hb
    simp only [SymSpec.lookup, flat, lastIdx_append]
    cases hl : lastIdx (f.binds.map fun p => (st.length, p.1, p.2)) s with
    | none =>
      rw [(find_none_iff f st.length s).1 hl, ih]
      cases hj : lastIdx (flat st) s with
      | none => simp
      | some j =>
        obtain ⟨x, hx, _⟩ := lastIdx_get _ _ _ hj
        have hlt := (List.getElem?_eq_some_iff.1 hx).1
        simp [List.getElem?_append_left hlt]
    | some j =>
      rw [hl] at hb
      simp only [Option.bind_some] at hb
      obtain ⟨x, hx, _⟩ := lastIdx_get _ _ _ hl
      rw [hx] at hb
      rw [← hb]
      simp only [Option.map_some, Option.bind_some]
      rw [List.getElem?_append_right (by omega)]
      simp [hx]

theorem bindings_fst (F : List FlatBind) : (build F).2.map Prod.fst = F.map (·.2.2) := by
  induction F using snoc_induction with
  | h0 => rfl
  | h1 F x ih => rw [build_snoc]; simp [rawInsert, ih]

theorem symrep_resolve (t : SymbolTable) (st : List Frame) (s : String) (h : SymRep t st) :
    t.resolve s = some (match SymSpec.lookup st s with
      | some n => .node n
      | none => .unknown s) := by
  obtain ⟨hs, hb, _, wf⟩ := h
  obtain ⟨_, _, h3, h4, _⟩ := build_facts (flat st)
  rw [lookup_flat st s wf.names]
  simp only [SymbolTable.resolve, hs, hb]
  have h3 := h3 s
  cases hf : imFind (build (flat st)).1 s with
  | none =>
    rw [hf] at h3
    simp only [Option.map_none] at h3
    simp [← h3]
  | some p =>
    obtain ⟨i, j⟩ := p
    rw [hf] at h3
    simp only [Option.map_some] at h3
    obtain ⟨x, hx, _⟩ := lastIdx_get _ _ _ h3.symm
    obtain ⟨b, hb, _⟩ := h4 j x hx
    simp [← h3, hx, hb]

theorem nodup_snoc {α : Type} {l : List α} {a : α} (h : l.Nodup) (ha : a ∉ l) :
    (l ++ [a]).Nodup := by
  rw [List.nodup_append]
  refine ⟨h, by simp, ?_⟩
  intro b hb c hc
  simp at hc
  subst hc
  intro hbc
  exact ha (hbc ▸ hb)

theorem symrep_insert (t : SymbolTable) (f : Frame) (st : List Frame) (s : String) (n : Nat)
    (h : SymRep t (f :: st)) (hn : n ∉ ((f :: st).flatMap (·.binds)).map Prod.snd) :
    StepAgrees SymRep (t.insert s n) (SymSpec.step (f :: st) (.insert s n)) := by
  have hlen : t.scopes.length = st.length + 1 := by
    rw [h.2.2.1, scopesOf_length]; rfl
  obtain ⟨hs, hb, hsc, wf⟩ := h
  have hwl := wf.len
  simp only [List.length_cons] at hwl
  have hmod : (st.length + 1) % 65536 = st.length + 1 := Nat.mod_eq_of_lt (by omega)
  obtain ⟨h1, h2, h3, h4, _⟩ := build_facts (flat (f :: st))
  have h3 := h3 s
  have hold := imInsert_old (build (flat (f :: st))).1 s (build (flat (f :: st))).2.length
  have hnf : n ∉ (build (flat (f :: st))).2.map Prod.fst := by
    rw [bindings_fst, flat_nodes]; exact hn
  have hflat : flat (⟨f.region, f.binds ++ [(s, n)]⟩ :: st) =
      flat (f :: st) ++ [(st.length, s, n)] := by
    simp [flat]
  -- the fresh binding
  have hfresh : f.find s = none →
      SymRep { t with
        symbols := (imInsert t.symbols s t.bindings.length).1
        bindings := (imInsert t.bindings n ⟨st.length,
          (imInsert t.symbols s t.bindings.length).2.2,
          (imInsert t.symbols s t.bindings.length).2.1⟩).1 }
        (⟨f.region, f.binds ++ [(s, n)]⟩ :: st) := by
    intro hfn
    refine ⟨?_, ?_, ?_, ?_⟩
    · simp only [hs, hb]
      rw [hflat, build_snoc]; rfl
    · simp only [hs, hb]
      rw [imInsert_fresh _ _ _ hnf, hflat, build_snoc]; rfl
    · simpa [scopesOf] using hsc
    · refine ⟨wf.len, wf.regions, ?_, ?_⟩
      · rw [hflat, List.map_append]
        exact nodup_snoc wf.nodes (by rw [flat_nodes]; exact hn)
      · intro g hg
        rcases List.mem_cons.1 hg with rfl | hg
        · have := wf.names f (List.mem_cons_self ..)
          simp only [List.map_append, List.map_cons, List.map_nil]
          refine nodup_snoc this ?_
          intro hm
          obtain ⟨p, hp, hps⟩ := List.mem_map.1 hm
          simp only [Frame.find, Option.map_eq_none_iff, List.find?_eq_none] at hfn
          exact hfn p hp (by simpa using hps)
        · exact wf.names g (List.mem_cons_of_mem _ hg)
  have hl := lastIdx_append (flat st) (f.binds.map fun p => (st.length, p.1, p.2)) s
  change lastIdx (flat (f :: st)) s = _ at hl
  simp only [SymSpec.step, SymbolTable.insert, hlen, hmod]
  rw [if_neg (by omega)]
  simp only [Nat.add_sub_cancel]
  simp only [hs, hb] at hfresh ⊢
  rw [hold] at hfresh ⊢
  cases hi : lastIdx (flat (f :: st)) s with
  | none =>
    rw [hi] at h3 hl
    have hfi : imFind (build (flat (f :: st))).1 s = none := by
      cases hff : imFind (build (flat (f :: st))).1 s with
      | none => rfl
      | some p => rw [hff] at h3; simp at h3
    have hfn : f.find s = none := by
      rw [← find_none_iff f st.length s]
      cases hc : lastIdx (f.binds.map fun p => (st.length, p.1, p.2)) s with
      | none => rfl
      | some j => rw [hc] at hl; simp at hl
    rw [hfi] at hfresh ⊢
    rw [hfn]
    exact ⟨rfl, hfresh hfn⟩
  | some j =>
    rw [hi] at h3
    rw [h3] at hfresh ⊢
    obtain ⟨x, hx, hxs⟩ := lastIdx_get _ _ _ hi
    obtain ⟨b, hbj, hbd, _, _⟩ := h4 j x hx
    simp only [hbj, hbd]
    cases hc : lastIdx (f.binds.map fun p => (st.length, p.1, p.2)) s with
    | none =>
      rw [hc] at hl
      rw [hi] at hl
      obtain ⟨y, hy, _⟩ := lastIdx_get _ _ _ hl.symm
      have hlt := (List.getElem?_eq_some_iff.1 hy).1
      have hxy : x = y := by
        have : (flat (f :: st))[j]? = (flat st)[j]? := List.getElem?_append_left hlt
        rw [hx, hy] at this
        simpa using this
      have hd := flat_depth st y (List.mem_of_getElem? hy)
      rw [if_neg (by rw [hxy]; omega)]
      have hfn := (find_none_iff f st.length s).1 hc
      rw [hfn]
      exact ⟨rfl, hfresh hfn⟩
    | some i =>
      rw [hc, hi] at hl
      simp only [Option.some.injEq] at hl
      have hxb : (f.binds.map fun p => (st.length, p.1, p.2))[i]? = some x := by
        have : (flat (f :: st))[j]? = (f.binds.map fun p => (st.length, p.1, p.2))[j - (flat st).length]? :=
          List.getElem?_append_right (by omega)
        rw [hx, hl, Nat.add_sub_cancel] at this
        exact this.symm
      have hxd : x.1 = st.length := by
        obtain ⟨p, _, rfl⟩ := List.mem_map.1 (List.mem_of_getElem? hxb); rfl
      have hblk := lastIdx_block st.length f.binds s (wf.names f (List.mem_cons_self ..))
      rw [hc] at hblk
      simp only [Option.bind_some, hxb, Option.map_some] at hblk
      have hfs : f.find s = some x.2.2 := hblk.symm
      rw [if_pos hxd, hfs]
      refine ⟨rfl, ?_, rfl, hsc, wf⟩
      simp only
      exact imInsert_restore_insert _ _ _ _ (by rw [hold, h3])

theorem symrep_exit (t : SymbolTable) (f : Frame) (st : List Frame) (h : SymRep t (f :: st)) :
    ∃ t', t.exit = some t' ∧ SymRep t' st := by
  obtain ⟨hs, hb, hsc, wf⟩ := h
  refine ⟨⟨(build (flat st)).1, (build (flat st)).2, scopesOf st⟩, ?_, rfl, rfl, rfl, ?_⟩
  · obtain ⟨sy, bi, sc⟩ := t
    simp only at hs hb hsc
    subst hs hb hsc
    have hp := popBindings_build (flat st) (f.binds.map fun p => (st.length, p.1, p.2)) (scopesOf st)
    obtain ⟨h1, _⟩ := build_facts (flat (f :: st))
    simp only [SymbolTable.exit, scopesOf, List.getLast?_concat, List.dropLast_concat, h1]
    have : (flat (f :: st)).length - (flat st).length =
        (f.binds.map fun p => (st.length, p.1, p.2)).length := by
      simp [flat]
    rw [this]
    exact hp
  · have hl := wf.len
    simp only [List.length_cons] at hl
    refine ⟨by omega, (List.nodup_cons.1 wf.regions).2, ?_, fun g hg => wf.names g (List.mem_cons_of_mem _ hg)⟩
    have := wf.nodes
    rw [flat, List.map_append, List.nodup_append] at this
    exact this.1

theorem sym_step_agrees (t : SymbolTable) (st : List Frame) (op : SymOp) (h : SymRep t st)
    (hok : SymSpec.okNoVisible st op) : StepAgrees SymRep (t.step op) (SymSpec.step st op) := by
  obtain ⟨hok, hnv⟩ := hok
  cases op with
  | enter r =>
    obtain ⟨hr, hl⟩ := hok
    obtain ⟨hs, hb, hsc, wf⟩ := h
    refine ⟨rfl, ?_, ?_, ?_, ?_⟩
    · simpa [SymbolTable.enter, flat] using hs
    · simpa [SymbolTable.enter, flat] using hb
    · simp only [SymbolTable.enter]
      have hb' : t.bindings.length = (flat st).length := by
        rw [hb]; exact (build_facts _).1
      rw [imInsert_fresh]
      · simp [scopesOf, hsc, hb']
      · rw [hsc, scopesOf_regions]
        simpa using hr
    · refine ⟨by simp; omega, ?_, by simpa [flat] using wf.nodes, ?_⟩
      · simp only [List.map_cons, List.nodup_cons]; exact ⟨hr, wf.regions⟩
      · intro g hg
        rcases List.mem_cons.1 hg with rfl | hg
        · simp
        · exact wf.names g hg
  | exit =>
    cases st with
    | nil =>
      have : t.scopes = [] := h.2.2.1
      simp [StepAgrees, SymbolTable.step, SymSpec.step, SymbolTable.exit, this]
    | cons f st =>
      obtain ⟨t', ht, hr⟩ := symrep_exit t f st h
      simp only [SymbolTable.step, SymSpec.step, ht]
      exact ⟨rfl, hr⟩
  | insert s n =>
    cases st with
    | nil =>
      have : t.scopes = [] := h.2.2.1
      simp [StepAgrees, SymbolTable.step, SymSpec.step, SymbolTable.insert, this]
    | cons f st => exact symrep_insert t f st s n h hok
  | resolve s =>
    have := symrep_resolve t st s h
    simp only [SymbolTable.step, SymSpec.step, this]
    cases SymSpec.lookup st s with
    | none => exact ⟨rfl, h⟩
    | some n => exact ⟨rfl, h⟩
  | regionToDepth r =>
    refine ⟨?_, h⟩
    simp only [SymOut.depth.injEq, SymbolTable.regionToDepth]
    rw [h.2.2.1, ← scopesOf_regions, ← imFind_idxOf]
    cases hf : imFind (scopesOf st) r with
    | none => rfl
    | some p =>
      obtain ⟨i, v⟩ := p
      have := imFind_spec _ _ _ _ hf
      have := (List.getElem?_eq_some_iff.1 this).1
      rw [scopesOf_length] at this
      have hl := h.2.2.2.len
      simp only [Option.map_some, Option.some.injEq]
      exact Nat.mod_eq_of_lt (by omega)
  | depthToRegion d =>
    refine ⟨?_, h⟩
    simp only [SymOut.region.injEq, SymbolTable.depthToRegion]
    rw [h.2.2.1, ← scopesOf_regions, List.getElem?_map]
  | isVisible n => exact absurd rfl (hnv n)

theorem symrep_new : SymRep SymbolTable.new [] :=
  ⟨rfl, rfl, rfl, ⟨by simp, by simp, by simp [flat], by simp⟩⟩

/-- **C27 (partial).** For every history of calls within the contract that makes
no `is_visible` query, the table answers each call (including panics and errors)
exactly as lexical scoping over the stack of open regions prescribes.

Missing: `is_visible`, which does not satisfy the property (see
`C27_is_visible_refuted`); what holds of it is `C27_is_visible_sound_partial` and
`C27_is_visible_unshadowed_partial`. -/
theorem C27_symbol_table_refines_stack_partial (ops : List SymOp)
    (h : Admissible SymSpec.step SymSpec.okNoVisible [] ops) :
    runOutputs SymbolTable.step SymbolTable.new ops = runOutputs SymSpec.step [] ops :=
  refine_outputs (R := SymRep) sym_step_agrees ops _ _ symrep_new h

/-- Shadowing and leaving the shadowing scope is such a history. -/
example : Admissible SymSpec.step SymSpec.okNoVisible []
      [.enter 0, .insert "foo" 0, .enter 1, .insert "foo" 1, .insert "foo" 2, .resolve "foo", .exit,
        .resolve "foo", .resolve "bar"] ∧
    runOutputs SymbolTable.step SymbolTable.new
      [.enter 0, .insert "foo" 0, .enter 1, .insert "foo" 1, .insert "foo" 2, .resolve "foo", .exit,
        .resolve "foo", .resolve "bar"] =
      [some .unit, some .unit, some .unit, some .unit, some (.duplicate "foo" 2 1), some (.node 1),
        some .unit, some (.node 0), some (.unknown "bar")] := by
  constructor
  · simp [Admissible, SymSpec.step, SymSpec.okNoVisible, SymSpec.okBase, Frame.find, SymSpec.lookup]
  · decide

/-- **C27, refuted for `is_visible`.** After `foo` is shadowed, the node that `foo`
resolves to is reported as not visible. -/
theorem C27_is_visible_refuted :
    ∃ ops node, Admissible SymSpec.step SymSpec.okBase [] (ops ++ [.isVisible node]) ∧
      ∃ t st, runState SymbolTable.step SymbolTable.new ops = some t ∧
        runState SymSpec.step [] ops = some st ∧
        SymSpec.Visible st node ∧ t.isVisible node = some false := by
  refine ⟨[.enter 0, .insert "foo" 0, .enter 1, .insert "foo" 1], 1, ?_, _, _, rfl, rfl,
    ⟨"foo", by decide⟩, by decide⟩
  simp [Admissible, SymSpec.step, SymSpec.okBase, Frame.find]

/-- Positions and symbol indices of the binding of a node. -/
theorem symrep_find (t : SymbolTable) (st : List Frame) (node : Nat) (h : SymRep t st) :
    (imFind t.bindings node = none ∧ node ∉ (flat st).map (·.2.2)) ∨
    ∃ j b x i, imFind t.bindings node = some (j, b) ∧ (flat st)[j]? = some x ∧ x.2.2 = node ∧
      b.symbolIndex ≤ j ∧ t.symbols[b.symbolIndex]? = some (x.2.1, i) ∧
      lastIdx (flat st) x.2.1 = some i := by
  obtain ⟨hs, hb, hsc, wf⟩ := h
  obtain ⟨h1, h2, h3, h4, h5⟩ := build_facts (flat st)
  rw [hs, hb]
  cases hf : imFind (build (flat st)).2 node with
  | none =>
    left
    refine ⟨rfl, ?_⟩
    have := (imFind_none _ _).1 hf
    rwa [bindings_fst] at this
  | some p =>
    right
    obtain ⟨j, b⟩ := p
    have hj := imFind_spec _ _ _ _ hf
    have hjl := (List.getElem?_eq_some_iff.1 hj).1
    rw [h1] at hjl
    have hx : (flat st)[j]? = some ((flat st)[j]) := List.getElem?_eq_getElem hjl
    obtain ⟨b', hb', _, hsi, hkey⟩ := h4 j _ hx
    rw [hj] at hb'
    simp only [Option.some.injEq, Prod.mk.injEq] at hb'
    obtain ⟨hn, rfl⟩ := hb'
    cases hg : (build (flat st)).1[b.symbolIndex]? with
    | none => rw [hg] at hkey; simp at hkey
    | some e =>
      rw [hg] at hkey
      simp only [Option.map_some, Option.some.injEq] at hkey
      refine ⟨j, b, _, e.2, rfl, hx, hn.symm, hsi, ?_, ?_⟩
      · rw [hg, ← hkey]
      · rw [← h3]
        -- the entry found under this name is the entry at this index
        have hmem : e.1 ∈ (build (flat st)).1.map Prod.fst :=
          List.mem_map.2 ⟨e, List.mem_of_getElem? hg, rfl⟩
        cases hff : imFind (build (flat st)).1 (flat st)[j].2.1 with
        | none =>
          have := (imFind_none _ _).1 hff
          rw [← hkey] at this
          exact absurd hmem this
        | some q =>
          obtain ⟨i', v⟩ := q
          have hsp := imFind_spec _ _ _ _ hff
          have e1 : ((build (flat st)).1.map Prod.fst)[i']? = some (flat st)[j].2.1 := by
            rw [List.getElem?_map, hsp]; rfl
          have e2 : ((build (flat st)).1.map Prod.fst)[b.symbolIndex]? = some (flat st)[j].2.1 := by
            rw [List.getElem?_map, hg, ← hkey]; rfl
          have hi : i' = b.symbolIndex := by
            have hl1 := (List.getElem?_eq_some_iff.1 e1).1
            exact (List.getElem?_inj hl1 h5).1 (e1.trans e2.symm)
          subst hi
          rw [hg] at hsp
          simp only [Option.some.injEq] at hsp
          simp [hsp]

theorem nodup_get_inj {α β : Type} {l : List α} {f : α → β} (h : (l.map f).Nodup) {i j : Nat}
    {x y : α} (hx : l[i]? = some x) (hy : l[j]? = some y) (hxy : f x = f y) : i = j := by
  have e1 : (l.map f)[i]? = some (f x) := by rw [List.getElem?_map, hx]; rfl
  have e2 : (l.map f)[j]? = some (f x) := by rw [List.getElem?_map, hy, hxy]; rfl
  exact (List.getElem?_inj (List.getElem?_eq_some_iff.1 e1).1 h).1 (e1.trans e2.symm)

theorem visible_iff (st : List Frame) (wf : StackWF st) (j : Nat) (x : FlatBind)
    (hx : (flat st)[j]? = some x) :
    SymSpec.Visible st x.2.2 ↔ lastIdx (flat st) x.2.1 = some j := by
  constructor
  · rintro ⟨s, hs⟩
    rw [lookup_flat st s wf.names] at hs
    cases hl : lastIdx (flat st) s with
    | none => rw [hl] at hs; simp at hs
    | some i =>
      obtain ⟨y, hy, hys⟩ := lastIdx_get _ _ _ hl
      rw [hl] at hs
      simp only [Option.bind_some, hy, Option.map_some, Option.some.injEq] at hs
      have hij := nodup_get_inj (f := fun x : FlatBind => x.2.2) wf.nodes hy hx hs
      subst hij
      rw [hx] at hy
      simp only [Option.some.injEq] at hy
      rw [hy, hys, hl]
  · intro hl
    refine ⟨x.2.1, ?_⟩
    rw [lookup_flat st _ wf.names, hl]
    simp [hx]

/-- **C27, `is_visible` (partial): no false positives.** After every history within
the contract, `is_visible` does not panic, and if it answers `true` then some name
does resolve to the node. -/
theorem C27_is_visible_sound_partial (ops : List SymOp)
    (h : Admissible SymSpec.step SymSpec.okNoVisible [] ops) (t : SymbolTable) (st : List Frame)
    (ht : runState SymbolTable.step SymbolTable.new ops = some t)
    (hst : runState SymSpec.step [] ops = some st) (node : Nat) :
    ∃ b, t.isVisible node = some b ∧ (b = true → SymSpec.Visible st node) := by
  have hr := refine_states (R := SymRep) sym_step_agrees ops _ _ symrep_new h t st ht hst
  rcases symrep_find t st node hr with ⟨hf, _⟩ | ⟨j, b, x, i, hf, hx, hn, hle, hsym, hl⟩
  · exact ⟨false, by simp [SymbolTable.isVisible, hf], by simp⟩
  · refine ⟨_, by simp only [SymbolTable.isVisible, hf, hsym]; rfl, ?_⟩
    intro hb
    have hb : i = b.symbolIndex := by simpa using hb
    have hji := lastIdx_last _ _ _ _ _ hl hx rfl
    rw [← hn, visible_iff st hr.2.2.2 j x hx, hl, Option.some.injEq]
    omega

theorem notMem_of_lastIdx_none (F : List FlatBind) (s : String) (h : lastIdx F s = none) :
    s ∉ (build F).1.map Prod.fst := by
  have h3 := (build_facts F).2.2.1 s
  rw [h] at h3
  rw [← imFind_none]
  cases hh : imFind (build F).1 s with
  | none => rfl
  | some p => rw [hh] at h3; simp at h3

/-- The map of symbols is as long as the list of bindings when names are distinct. -/
theorem build_distinct_length (F : List FlatBind) (h : (F.map (·.2.1)).Nodup) :
    (build F).1.length = F.length := by
  induction F using snoc_induction with
  | h0 => rfl
  | h1 F x ih =>
    rw [List.map_append, List.nodup_append] at h
    have hl : lastIdx F x.2.1 = none := by
      rw [lastIdx_none]
      intro y hy hyx
      exact h.2.2 y.2.1 (List.mem_map.2 ⟨y, hy, rfl⟩) x.2.1 (by simp) hyx
    rw [build_snoc]
    simp [rawInsert, imInsert_fresh _ _ _ (notMem_of_lastIdx_none F _ hl), ih h.1]

/-- When names are distinct, symbol indices are binding indices. -/
theorem build_distinct (F : List FlatBind) (h : (F.map (·.2.1)).Nodup) :
    ∀ (j : Nat) (b : Nat × Binding) (x : FlatBind),
      (build F).2[j]? = some b → F[j]? = some x → b.2.symbolIndex = j := by
  induction F using snoc_induction with
  | h0 => simp [build]
  | h1 F x ih =>
    rw [List.map_append, List.nodup_append] at h
    have hl : lastIdx F x.2.1 = none := by
      rw [lastIdx_none]
      intro y hy hyx
      exact h.2.2 y.2.1 (List.mem_map.2 ⟨y, hy, rfl⟩) x.2.1 (by simp) hyx
    have ih := ih h.1
    have h1 := (build_facts F).1
    have hlen := build_distinct_length F h.1
    intro j b y hb hy
    rw [build_snoc] at hb
    simp only [rawInsert] at hb
    by_cases hlt : j < F.length
    · rw [List.getElem?_append_left (by omega)] at hb
      rw [List.getElem?_append_left hlt] at hy
      exact ih j b y hb hy
    · have := (List.getElem?_eq_some_iff.1 hy).1
      simp only [List.length_append, List.length_cons, List.length_nil] at this
      have hj : j = (build F).2.length := by omega
      subst hj
      simp only [List.getElem?_concat_length, Option.some.injEq] at hb
      subst hb
      simp [imInsert_fresh _ _ _ (notMem_of_lastIdx_none F _ hl), hlen, h1]

/-- **C27, `is_visible` (partial): exact when nothing is shadowed.** After every
history within the contract that leaves no name bound twice, `is_visible` answers
`true` exactly for the nodes that some name resolves to. -/
theorem C27_is_visible_unshadowed_partial (ops : List SymOp)
    (h : Admissible SymSpec.step SymSpec.okNoVisible [] ops) (t : SymbolTable) (st : List Frame)
    (ht : runState SymbolTable.step SymbolTable.new ops = some t)
    (hst : runState SymSpec.step [] ops = some st)
    (hsh : ((st.flatMap (·.binds)).map Prod.fst).Nodup) (node : Nat) :
    ∃ b, t.isVisible node = some b ∧ (b = true ↔ SymSpec.Visible st node) := by
  have hr := refine_states (R := SymRep) sym_step_agrees ops _ _ symrep_new h t st ht hst
  have hd : ((flat st).map (·.2.1)).Nodup := by
    have : ∀ st : List Frame, ((flat st).map (·.2.1)).Perm ((st.flatMap (·.binds)).map Prod.fst) := by
      intro st
      induction st with
      | nil => simp [flat]
      | cons f st ih =>
        simp only [flat, List.map_append, List.flatMap_cons, List.map_map]
        refine (List.perm_append_comm).trans ?_
        exact List.Perm.append (by simp [Function.comp_def]) ih
    exact (this st).nodup_iff.2 hsh
  rcases symrep_find t st node hr with ⟨hf, hnot⟩ | ⟨j, b, x, i, hf, hx, hn, hle, hsym, hl⟩
  · refine ⟨false, by simp [SymbolTable.isVisible, hf], ?_⟩
    simp only [Bool.false_eq_true, false_iff]
    rintro ⟨s, hs⟩
    rw [lookup_flat st s hr.2.2.2.names] at hs
    cases hls : lastIdx (flat st) s with
    | none => rw [hls] at hs; simp at hs
    | some i =>
      obtain ⟨y, hy, _⟩ := lastIdx_get _ _ _ hls
      rw [hls] at hs
      simp only [Option.bind_some, hy, Option.map_some, Option.some.injEq] at hs
      exact hnot (List.mem_map.2 ⟨y, List.mem_of_getElem? hy, hs⟩)
  · refine ⟨_, by simp only [SymbolTable.isVisible, hf, hsym]; rfl, ?_⟩
    have hbj := imFind_spec _ _ _ _ hf
    rw [hr.2.1] at hbj
    have hsj : b.symbolIndex = j := build_distinct _ hd j _ x hbj hx
    rw [← hn, visible_iff st hr.2.2.2 j x hx, hl, hsj]
    simp

/-- A history with two visible nodes and one node that is not bound. -/
example : ∃ t st, runState SymbolTable.step SymbolTable.new
      [.enter 0, .insert "foo" 0, .enter 1, .insert "bar" 1] = some t ∧
    runState SymSpec.step [] [.enter 0, .insert "foo" 0, .enter 1, .insert "bar" 1] = some st ∧
    ((st.flatMap (·.binds)).map Prod.fst).Nodup ∧ t.isVisible 0 = some true ∧
    t.isVisible 1 = some true ∧ t.isVisible 2 = some false :=
  ⟨_, _, rfl, rfl, by decide, by decide, by decide, by decide⟩

end Verif.Scope
