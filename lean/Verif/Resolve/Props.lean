import Verif.Resolve.Runs
/-!
# C69: resolution of names
-/
namespace Verif.Resolve
open Verif
open Verif.Binary (NodeId LinkIndex RegionId TermId Literal)
open Verif.Scope

theorem resolve_runs {m : Module} {fits : Prop} (hd : moduleDepth m ≤ 65535) (hs : ScopedModule m)
    (hb : fits → moduleSize m ≤ 4294967295 ∧ moduleArity m ≤ 65535) :
    Runs fits (moduleSize m) (resolveRoot m.root State.new) := by
  obtain ⟨⟨k, srcs, tgts, cs, ms, sig⟩⟩ := m
  simp only [moduleDepth, moduleSize, moduleArity] at hd hb ⊢
  obtain ⟨hs1, hs2, hs3⟩ := hs
  simp only [resolveRoot]
  refine (insertRegion_runs (b := 0) fun hf => ⟨(by decide : load State.new ≤ 0), by omega⟩).bind fun rid s3 hr3 h3 => ?_
  unfold insertRegion at hr3
  cases hid : newId State.new.regions.length with
  | none => rw [hid] at hr3; cases hr3
  | some rid' =>
  rw [hid] at hr3
  simp only [R.ok.injEq] at hr3
  obtain ⟨rfl, rfl⟩ := hr3
  have hi4 := enterRegion_ok (closed := true) inv_new hid (by simp)
  have hl4 : load (enterRegion rid' true { State.new with regions := State.new.regions ++ [defaultRegion] }) =
      load { State.new with regions := State.new.regions ++ [defaultRegion] } := rfl
  generalize enterRegion rid' true { State.new with regions := State.new.regions ++ [defaultRegion] } = s4 at hi4 hl4 ⊢
  refine children_runs (b := 1) hi4 hs1 (fun hf => ⟨by rw [hl4]; exact h3 hf, by have := hb hf; omega⟩)
    fun ids s7 s8 hr7 hr8 h8 => ?_
  obtain ⟨hi8, st8, im8, re8, hnod, hlo, hhi, hfresh, hlen⟩ := children_ok hi4 hr7 hr8
  refine (nodes_runs cs (b := 1 + cs.length) hi8 (by simp only [List.length_cons, List.length_nil]; omega) hlen hhi hfresh
    (by simp [enterLinks]) hs2 fun hf => ⟨h8 hf, by
      have := hb hf
      simp only [enterLinks, if_pos, headUses]; omega⟩).bind fun _ s9 hr9 h9 => ?_
  obtain ⟨ls9, k9, g9⟩ := nodes_good cs hi8 (by simp only [List.length_cons, List.length_nil]; omega) hnod hhi hfresh hr9
  refine (terms_runs ms (b := 1 + cs.length + nodesSize cs) g9.1 (by simp only [List.length_cons, List.length_nil]; omega)
    hs3 fun hf => ⟨h9 hf, by have := hb hf; omega⟩).bind fun ms' s10 hr10 h10 => ?_
  have g10 := terms_good ms g9.1 (by simp only [List.length_cons, List.length_nil]; omega) hr10
  simp only [enterLinks, if_pos] at k9
  cases ls9 with
  | nil => exact k9.elim
  | cons f9 r9 =>
    refine (exitLinks_runs g10.1 h10).bind fun sc sa ha h11 => ?_
    exact (exitSymbols_runs (exitLinks_ok g10.1 ha).1 h11).bind fun _ sb _ h => h

/-! ## The property -/

/-- **C69** Resolving the names of a module gives tables that represent it: every node, region and term of the module has
an entry, every variable refers to the parameter of that name of the innermost node with parameters, every symbol refers
to the node that introduces it in the innermost region around the use that has one, or else to an import of that name at
the end of the root, every link of a closed region is numbered by its name, and the counts of links and ports are right.
The order of the imports is the order in which a hash map is drained. -/
theorem C69_resolve_represents (drain : List NodeId → List NodeId) (hp : ∀ l, (drain l).Perm l) (m : Module)
    (M : Binary.Module) (hd : moduleDepth m ≤ 65535) (h : resolve drain m = .ok M) : RepModule M m :=
  (resolve_rep hp hd h).1

/-- **C69** Viewing the tables gives back the module that was resolved, with the links of each closed region renamed one
to one, floats replaced only by equal ones, and one import for each symbol used but not introduced around the use. -/
theorem C69_view_resolve (drain : List NodeId → List NodeId) (hp : ∀ l, (drain l).Perm l) (m : Module)
    (M : Binary.Module) (hd : moduleDepth m ≤ 65535) (h : resolve drain m = .ok M) :
    ∃ steps m' imports, imports.Nodup ∧ (∀ x, x ∈ imports ↔ FreeModule x m) ∧ SameModule imports m m' ∧
      ∀ f, steps ≤ f → asAst M f = .ok m' :=
  rep_view (resolve_rep hp hd h).2 (resolve_rep hp hd h).1

/-- **C69** Names can be resolved exactly in the well-scoped modules: those that are resolved are well scoped, those that
are rejected with an error are not, and a well-scoped module of at most `2^32 - 1` items, with at most 65535 parameters
for each symbol, is resolved. -/
theorem C69_resolve_scoped (drain : List NodeId → List NodeId) (hp : ∀ l, (drain l).Perm l) (m : Module)
    (hd : moduleDepth m ≤ 65535) :
    (∀ M, resolve drain m = .ok M → ScopedModule m) ∧ (∀ e, resolve drain m = .error e → ¬ ScopedModule m) ∧
      (ScopedModule m → moduleSize m ≤ 4294967295 → moduleArity m ≤ 65535 → ∃ M, resolve drain m = .ok M) := by
  refine ⟨fun M h => module_scoped (resolve_rep hp hd h).1, fun e h hs => ?_, fun hs hz ha => ?_⟩
  · have := resolve_runs (fits := False) hd hs (fun h => h.elim)
    unfold resolve at h
    cases hr : resolveRoot m.root State.new with
    | panic => simp only [hr] at h; cases h
    | error e => rw [hr] at this; exact this
    | ok a s =>
      simp only [hr] at h
      obtain ⟨a, b, c, d⟩ := a
      simp only at h
      split at h <;> cases h
  · have := resolve_runs (fits := True) hd hs (fun _ => ⟨hz, ha⟩)
    unfold resolve
    cases hr : resolveRoot m.root State.new with
    | panic => rw [hr] at this; exact absurd trivial this
    | error e => rw [hr] at this; exact this.elim
    | ok a s =>
      obtain ⟨root, ids, ms, sc⟩ := a
      simp only []
      rw [if_pos]
      · exact ⟨_, rfl⟩
      · -- the root is the first region
        obtain ⟨⟨k, srcs, tgts, cs, ms0, sig⟩⟩ := m
        simp only [resolveRoot] at hr
        simp only [moduleDepth] at hd
        obtain ⟨rid, s3, h3, hr⟩ := bind_ok hr
        obtain ⟨ids', s7, h7, hr⟩ := bind_ok hr
        obtain ⟨_, s8, h8, hr⟩ := bind_ok hr
        obtain ⟨_, s9, h9, hr⟩ := bind_ok hr
        obtain ⟨ms'', s10, h10, hr⟩ := bind_ok hr
        obtain ⟨sc', s11, h11, hr⟩ := bind_ok hr
        obtain ⟨_, s12, h12, hr⟩ := bind_ok hr
        simp only [R.ok.injEq, Prod.mk.injEq] at hr
        obtain ⟨⟨rfl, rfl, rfl, rfl⟩, rfl⟩ := hr
        unfold insertRegion at h3
        cases hid : newId State.new.regions.length with
        | none => rw [hid] at h3; cases h3
        | some rid' =>
        rw [hid] at h3
        simp only [R.ok.injEq] at h3
        obtain ⟨rfl, rfl⟩ := h3
        obtain ⟨e1, e2⟩ := newId_some hid
        have hi4 := enterRegion_ok (closed := true) inv_new hid (by simp)
        have ht4 : (enterRegion rid' true { State.new with regions := State.new.regions ++ [defaultRegion] }).regions =
          [defaultRegion] := rfl
        generalize enterRegion rid' true { State.new with regions := State.new.regions ++ [defaultRegion] } = s4
          at h7 hi4 ht4
        obtain ⟨hi8, st8, im8, re8, hnod, hlo, hhi, hfresh, hlen⟩ := children_ok hi4 h7 h8
        obtain ⟨ls9, k9, g9⟩ :=
          nodes_good cs hi8 (by simp only [List.length_cons, List.length_nil]; omega) hnod hhi hfresh h9
        have g10 := terms_good ms0 g9.1 (by simp only [List.length_cons, List.length_nil]; omega) h10
        simp only [enterLinks, if_pos] at k9
        cases ls9 with
        | nil => exact k9.elim
        | cons f9 r9 =>
          obtain ⟨hi11, ⟨t11, e11⟩, _⟩ := exitLinks_ok g10.1 h11
          obtain ⟨hi12, t12, e12⟩ := exitSymbols_ok hi11 h12
          have a1 := g9.2.1.regions_le
          have a2 := g10.2.1.regions_le
          rw [re8, ht4] at a1
          have : s12.regions = s10.regions := by rw [e12, e11]
          rw [this, e1]
          simp [State.new] at a1 ⊢
          omega

/-! ## An example -/

/-- A module with a function with a parameter, which uses a function after it and an extension operation that is not
introduced, and has a dataflow region with links in its body. -/
def sample : Module :=
  ⟨.mk .module [] [] [
    .mk (.defineFunc (.mk none "f" [.mk "n" (.apply "core.nat" [])] []
      (.apply "core.fn" [.list [.item (.var "n")], .list []]))) [] [] [
        .mk .dataFlow ["a"] ["b"] [
          .mk (.simple .dfg) ["a"] ["c"] [.mk .dataFlow ["d"] ["d"] [] [] none] [] none,
          .mk (.custom (.apply "g" [.var "n"])) ["c"] ["b"] [] [.literal (.nat 1)] none] [] none] [] none,
    .mk (.declare .func (.mk none "g" [.mk "m" .wildcard] [] (.var "m"))) [] [] [] [] none] [] none⟩

/-- The example meets the hypotheses. -/
example : moduleDepth sample ≤ 65535 ∧ moduleSize sample ≤ 4294967295 ∧ moduleArity sample ≤ 65535 ∧
    ScopedModule sample := by
  refine ⟨by decide +kernel, by decide +kernel, by decide +kernel, ?_⟩
  simp [sample, ScopedModule, introducedNames, Node.operation, Operation.symbolName, Symbol.name, ScopedNodes, ScopedNode,
    ScopedOperation, ScopedSymbol, ScopedParams, ScopedParam, ScopedTerm, ScopedTerms, ScopedParts, ScopedPart,
    ScopedOption, ScopedRegions, ScopedRegion, Operation.symbol, Symbol.params, Param.name]

/-- Whether the result is these tables. -/
def Resolved.isOk (r : Resolved) (M : Binary.Module) : Bool :=
  match r with
  | .ok N => decide (N = M)
  | _ => false

theorem Resolved.isOk_eq {r : Resolved} {M : Binary.Module} (h : r.isOk M = true) : r = .ok M := by
  cases r with
  | ok N => simp only [Resolved.isOk, decide_eq_true_eq] at h; rw [h]
  | error e => cases h
  | panic => cases h

/-- Whether the result is this error. -/
def Resolved.isError (r : Resolved) (e : ResolveError) : Bool :=
  match r with
  | .error e' => decide (e' = e)
  | _ => false

/-- It is resolved to four nodes of its own and two imports. -/
example : (match resolve id sample with
    | .ok M => M.nodes.length == 6 && M.regions.length == 3 && (M.regions[0]?.map fun r => r.children.length) == some 4
    | _ => false) = true := by decide +kernel

/-- A module that uses a variable that is not in scope is rejected. -/
example : (resolve id ⟨.mk .module [] [] [] [.var "x"] none⟩).isError (.unknownVar "x") = true := by decide +kernel

/-- So is one in which a symbol is introduced twice. -/
example : (resolve id ⟨.mk .module [] [] [.mk (.import "x") [] [] [] [] none, .mk (.import "x") [] [] [] [] none] []
    none⟩).isError (.duplicateSymbol "x") = true := by decide +kernel

/-! ## What is not kept -/

/-- Terms are shared if they are equal, and `0.0` and `-0.0` are equal. So a module with the two literals `0.0` and
`-0.0` comes back from the tables with `0.0` twice: the sign of the second is lost. -/
theorem C69_float_sign_wrong :
    ∃ M, resolve id ⟨.mk .module [] [] [] [.literal (.float 0), .literal (.float 0x8000000000000000)] none⟩ = .ok M ∧
      ∀ f, asAst M (f + 2) = .ok ⟨.mk .module [] [] [] [.literal (.float 0), .literal (.float 0)] none⟩ := by
  refine ⟨⟨0, [], [⟨.module, [], [], [], [0, 0], none, some ⟨0, 0⟩⟩], [.literal (.float 0)]⟩,
    Resolved.isOk_eq (by decide +kernel), fun f => ?_⟩
  simp [asAst, viewRegion, viewTerm, getTerm, collect, collectOption, V.bind]

/-- The kind, the ports and the signature of the root of a module have no effect on the result of the resolution, and
are not checked: whatever they are, the root of the result is a module region without ports and signature. -/
theorem C69_root_ignored (drain : List NodeId → List NodeId) (k k' : Binary.RegionKind) (srcs tgts srcs' tgts' : List String)
    (sig sig' : Option Term) (cs : List Node) (ms : List Term) :
    resolve drain ⟨.mk k srcs tgts cs ms sig⟩ = resolve drain ⟨.mk k' srcs' tgts' cs ms sig'⟩ := rfl

/-- The tables of a module can be read from a file and are not checked. With a variable whose index is out of range, the
view indexes the parameters of a symbol out of range: it panics rather than to give an error. -/
theorem C69_view_panics : ∃ M : Binary.Module, ∀ f, asAst M (f + 2) = .panic := by
  refine ⟨⟨0, [⟨.declareFunc ⟨none, "f", [], [], 0⟩, [], [], [], [], none⟩], [⟨.module, [], [], [0], [0], none, none⟩],
    [.var 0 0]⟩, fun f => ?_⟩
  simp [asAst, viewRegion, viewTerm, getTerm, viewVar, tableSymbol, collect, V.bind]

/-- If the term of a table is a list with itself as an item then the view never comes to an end: however many nested calls
are allowed, more are needed, and the real code overflows the stack. -/
theorem C69_view_terminates_refuted : ∃ M : Binary.Module, ∀ f, asAst M f = .more := by
  refine ⟨⟨0, [], [⟨.module, [], [], [], [0], none, none⟩], [.list [.item 0]]⟩, fun f => ?_⟩
  have h : ∀ f, viewTerm ⟨0, [], [⟨.module, [], [], [], [0], none, none⟩], [.list [.item 0]]⟩ f 0 = .more := by
    intro f
    induction f with
    | zero => rfl
    | succ f ih =>
      simp only [viewTerm, getTerm]
      simp [collect, viewPart, ih, V.bind]
  cases f with
  | zero => rfl
  | succ f => simp [asAst, viewRegion, collect, h, V.bind]

end Verif.Resolve
