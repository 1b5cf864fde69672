import Verif.Binary.Lemmas

/-!
# Property C68: the binary format keeps packages
-/
namespace Verif.Binary

/-- The id that stands for no term: `TermId::default()`, table/mod.rs:440-444. -/
def noTerm : TermId := 0xFFFFFFFF

/-- The symbol of an alias, if the operation is one. -/
def Operation.alias? : Operation → Option Symbol
  | .defineAlias s _ => some s
  | .declareAlias s => some s
  | _ => none

/-- A node that the binary format can store: aliases are without constraints, and the signature is a real id. -/
def Node.Storable (n : Node) : Prop := (∀ s, n.operation.alias? = some s → s.constraints = []) ∧ n.signature ≠ some noTerm

/-- A package that the binary format can store. -/
def Package.Storable (p : Package) : Prop :=
  ∀ m ∈ p.modules, (∀ n ∈ m.nodes, n.Storable) ∧ ∀ r ∈ m.regions, r.signature ≠ some noTerm

open Struct

attribute [local simp] length_set16 length_set32 length_set64 length_setPtr length_init ptrs_set16 ptrs_set32 ptrs_set64 ptrs_setPtr
  ptrs_init get16_set16 get32_set32 get64_set64 get16_set16_ne get16_set32 get16_set64 get32_set16 get32_set32_ne get16_setPtr
  get32_setPtr get64_setPtr getPtr_set16 getPtr_set32 getPtr_set64 getPtr_setPtr getPtr_setPtr_ne get16_init get32_init getPtr_init
  text_ofText

theorem param_round (p : Param) : readParam (writeParam p) = some p := by
  simp [readParam, writeParam]

theorem visibility_round (v : Visibility) : readVisibility (visibilityNumber v) = some (some v) := by cases v <;> decide

theorem params_round (l : List Param) : collect readParam (l.map writeParam) = some l := by
  rw [collect_map (k := fun p => p) fun p _ => param_round p, List.map_id']

theorem symbol_round (s : Symbol) (cs : Option (List TermId)) :
    readSymbol (writeSymbol s) cs = some { s with constraints := cs.getD s.constraints } := by
  obtain ⟨vis, name, params, constraints, sig⟩ := s
  have h0 : readVisibility 0 = some none := rfl
  cases vis <;> cases cs <;>
    simp [readSymbol, writeSymbol, visibility_round, Ptr.asStructs, Ptr.asWords, params_round, h0]

theorem symbolAt_round (s : Symbol) (cs : Option (List TermId)) :
    readSymbolAt (.struct (writeSymbol s)) cs = some { s with constraints := cs.getD s.constraints } := by
  simp [readSymbolAt, Ptr.asStruct, symbol_round]

theorem operation_round (op : Operation) (h : ∀ s, op.alias? = some s → s.constraints = []) :
    readOperation (writeOperation op) = some op := by
  cases op <;> simp [readOperation, writeOperation, symbolAt_round]
  · rename_i s _
    have := h s rfl
    obtain ⟨⟩ := s; simp_all
  · rename_i s
    have := h s rfl
    obtain ⟨⟩ := s; simp_all

theorem optional_round (debug : Bool) {t : Option TermId} (h : t ≠ some noTerm) :
    ∃ v, writeOptional debug t = some v ∧ readOptional v = t := by
  cases t with
  | none => exact ⟨0, rfl, rfl⟩
  | some t =>
    have h' : t ≠ 0xFFFFFFFF := fun e => h (by rw [e]; rfl)
    refine ⟨t + 1, by simp [writeOptional, h'], ?_⟩
    have h0 : t + 1 ≠ 0 := by
      intro e; apply h'
      have e2 : t + 1 - 1 = 0 - 1 := by rw [e]
      rw [UInt32.add_sub_cancel] at e2
      rw [e2]; rfl
    simp [readOptional, h0]

theorem node_round (debug : Bool) {n : Node} (h : n.Storable) : ∃ s, writeNode debug n = some s ∧ readNode s = some n := by
  obtain ⟨v, h1, h2⟩ := optional_round debug h.2
  refine ⟨_, by simp only [writeNode, h1]; rfl, ?_⟩
  simp [readNode, Ptr.asStruct, Ptr.asWords, operation_round _ h.1, h2]

theorem kind_round (k : RegionKind) : readKind (kindNumber k) = some k := by cases k <;> decide

theorem scope_round (s : RegionScope) : readRegionScope (writeRegionScope s) = s := by
  simp [readRegionScope, writeRegionScope]

theorem region_round (debug : Bool) {r : Region} (h : r.signature ≠ some noTerm) :
    ∃ s, writeRegion debug r = some s ∧ readRegion s = some r := by
  obtain ⟨v, h1, h2⟩ := optional_round debug h
  refine ⟨_, by simp only [writeRegion, h1]; rfl, ?_⟩
  obtain ⟨kind, sources, targets, children, metas, sig, scope⟩ := r
  cases scope <;> simp_all [readRegion, readScope, Ptr.isNull, Ptr.asStruct, Ptr.asWords, kind_round, scope_round]

theorem seqPart_round (p : SeqPart) : readSeqPart (writeSeqPart p) = some p := by
  cases p <;> simp [readSeqPart, writeSeqPart]

theorem parts_round (ps : List SeqPart) : readParts (.structs (ps.map writeSeqPart)) = some ps := by
  simp only [readParts, Ptr.asStructs]
  rw [collect_map (k := fun p => p) fun p _ => seqPart_round p, List.map_id']

theorem term_round (t : Term) : readTerm (writeTerm t) = some t := by
  cases t with
  | literal l => cases l <;> simp [readTerm, writeTerm, Ptr.data]
  | _ => simp [readTerm, writeTerm, Ptr.asWords, parts_round]

theorem module_round (debug : Bool) {m : Module} (h : (∀ n ∈ m.nodes, n.Storable) ∧ ∀ r ∈ m.regions, r.signature ≠ some noTerm) :
    ∃ s, writeModule debug m = some s ∧ readModule s = some m := by
  obtain ⟨ns, h1, h2⟩ := collect_round fun n hn => node_round debug (h.1 n hn)
  obtain ⟨rs, h3, h4⟩ := collect_round fun r hr => region_round debug (h.2 r hr)
  have h5 : collect readTerm (m.terms.map writeTerm) = some m.terms := by
    rw [collect_map (k := fun p => p) fun p _ => term_round p, List.map_id']
  refine ⟨_, by simp only [writeModule, h1, h3]; rfl, ?_⟩
  simp [readModule, readStructs, Ptr.asStructs, h2, h4, h5]

/-- **C68** Writing a package and reading the message gives the package back, and writing does not panic.

Partial: aliases must be without constraints, and no signature may be the id that stands for no term, see below; the limits on the
size of messages are not modelled. -/
theorem C68_round_trip_partial (debug : Bool) {p : Package} (h : p.Storable) :
    ∃ s, writePackage debug p = some s ∧ readPackage s = .ok p := by
  obtain ⟨ms, h1, h2⟩ := collect_round fun m hm => module_round debug (h m hm)
  refine ⟨_, by simp only [writePackage, h1]; rfl, ?_⟩
  simp [readPackage, Ptr.asStruct, writeVersion, readStructs, Ptr.asStructs, h2]

/-- **C68** Different packages have different messages. -/
theorem C68_injective_partial (debug : Bool) {p q : Package} (hp : p.Storable) (hq : q.Storable)
    (e : writePackage debug p = writePackage debug q) : p = q := by
  obtain ⟨s, h1, h2⟩ := C68_round_trip_partial debug hp
  obtain ⟨t, h3, h4⟩ := C68_round_trip_partial debug hq
  rw [h1, h3] at e; cases e
  rw [h2] at h4; cases h4; rfl

/-! ## What is read -/

theorem readOptional_ne (v : UInt32) : readOptional v ≠ some noTerm := by
  unfold readOptional
  by_cases hv : v = 0
  · rw [if_pos hv]; nofun
  · rw [if_neg hv]
    intro e
    apply hv
    have e' : v - 1 = 0xFFFFFFFF := Option.some.inj e
    have : v - 1 + 1 = 0xFFFFFFFF + 1 := by rw [e']
    simpa using this

theorem readSymbolAt_constraints {p : Ptr} {cs : List TermId} {s : Symbol} (e : readSymbolAt p (some cs) = some s) : s.constraints = cs := by
  unfold readSymbolAt at e
  cases hp : p.asStruct with
  | none => rw [hp] at e; cases e
  | some r =>
    rw [hp] at e
    simp only [readSymbol] at e
    split at e
    · split at e
      · rename_i h; cases h; cases e; rfl
      · cases e
    · cases e

theorem readOperation_alias {r : Struct} {op : Operation} (e : readOperation r = some op) (s : Symbol) (hs : op.alias? = some s) :
    s.constraints = [] := by
  unfold readOperation at e
  by_cases h6 : r.get16 2 = 6
  · simp [h6] at e
    obtain ⟨a, h1, rfl⟩ := e
    cases hs; exact readSymbolAt_constraints h1
  by_cases h7 : r.get16 2 = 7
  · simp [h7] at e
    obtain ⟨a, h1, rfl⟩ := e
    cases hs; exact readSymbolAt_constraints h1
  rw [if_neg h6, if_neg h7] at e
  have no : ∀ {α : Type} {f : α → Operation} {o : Option α}, (∀ a, (f a).alias? = none) → o.map f = some op → False := by
    intro α f o hf e
    rw [Option.map_eq_some_iff] at e
    obtain ⟨a, _, rfl⟩ := e
    rw [hf] at hs; cases hs
  exfalso
  revert e
  have ite : ∀ {c : Prop} [Decidable c] {a b : Option Operation}, (a = some op → False) → (b = some op → False) →
      (if c then a else b) = some op → False := by
    intro c _ a b ha hb; split <;> assumption
  repeat' refine ite ?_ ?_
  all_goals first
    | exact no fun _ => rfl
    | (intro e; cases e; cases hs)
    | nofun

theorem readNode_storable {r : Struct} {n : Node} (e : readNode r = some n) : n.Storable := by
  unfold readNode at e
  split at e
  · cases e
  · split at e
    · cases e
      rename_i h _ _ _ _
      exact ⟨readOperation_alias h, readOptional_ne _⟩
    · cases e

theorem readRegion_storable {r : Struct} {n : Region} (e : readRegion r = some n) : n.signature ≠ some noTerm := by
  unfold readRegion at e
  split at e
  · split at e
    · cases e; exact readOptional_ne _
    · cases e
  · cases e

theorem readStructs_mem {α : Type} {f : Struct → Option α} {P : α → Prop} (hf : ∀ x y, f x = some y → P y) {p : Ptr} {ys : List α}
    (e : readStructs f p = some ys) : ∀ y ∈ ys, P y := by
  unfold readStructs at e
  split at e
  · cases e
  · exact collect_mem hf e

theorem readModule_storable {r : Struct} {m : Module} (e : readModule r = some m) :
    (∀ n ∈ m.nodes, n.Storable) ∧ ∀ r ∈ m.regions, r.signature ≠ some noTerm := by
  unfold readModule at e
  split at e
  · rename_i h1 h2 h3
    cases e
    exact ⟨readStructs_mem (fun _ _ => readNode_storable) h1, readStructs_mem (fun _ _ => readRegion_storable) h2⟩
  · cases e

/-- **C68** A package that was read can be written without a panic, and reads back the same. -/
theorem C68_read_again (debug : Bool) {s : Struct} {p : Package} (h : readPackage s = .ok p) :
    ∃ t, writePackage debug p = some t ∧ readPackage t = .ok p := by
  refine C68_round_trip_partial debug ?_
  unfold readPackage at h
  split at h
  · cases h
  · split at h
    · cases h
    · split at h
      · cases h
      · rename_i e
        cases h
        exact readStructs_mem (fun _ _ => readModule_storable) e

/-- **C68** A message of another major version, or of a newer minor version, is rejected whatever else is in it; no other message is
rejected for its version. -/
theorem C68_version (s v : Struct) (hv : s.getPtr 1 = .struct v) :
    (∃ a b, readPackage s = .versionError a b) ↔ v.get32 0 ≠ currentMajor ∨ currentMinor < v.get32 1 := by
  unfold readPackage
  simp only [hv, Ptr.asStruct]
  by_cases h : v.get32 0 ≠ currentMajor ∨ v.get32 1 > currentMinor
  · rw [if_pos h]; exact ⟨fun _ => h, fun _ => ⟨_, _, rfl⟩⟩
  · rw [if_neg h]
    refine ⟨fun ⟨a, b, e⟩ => ?_, fun h' => absurd h' h⟩
    split at e <;> cases e

/-! ## Examples and findings -/

/-- A package with a generic function, a constant and an alias. -/
def examplePackage : Package :=
  ⟨[{ root := 0,
      nodes := [⟨.defineFunc ⟨some .«public», "f", [⟨"t", 0⟩], [1], 2⟩, [], [], [1], [], none⟩,
        ⟨.defineAlias ⟨none, "a", [], [], 0⟩ 3, [], [], [], [3], some 0⟩, ⟨.import "é", [1, 2], [3], [], [], none⟩],
      regions := [⟨.module, [], [], [0, 1], [], none, none⟩, ⟨.dataFlow, [0], [0], [2], [3], some 0xFFFFFFFE, some ⟨1, 70000⟩⟩],
      terms := [.wildcard, .apply 2 [0], .tuple [.item 0, .splice 1], .literal (.str "x"), .literal (.nat 0xFFFFFFFFFFFFFFFF),
        .var 0 65535, .literal (.float 0x3FF0000000000000), .literal (.bytes [0, 255])] }]⟩

example : examplePackage.Storable := by
  intro m hm
  simp only [examplePackage, List.mem_singleton] at hm
  subst hm
  refine ⟨fun n hn => ?_, fun r hr => ?_⟩
  · simp only [List.mem_cons, List.not_mem_nil, or_false] at hn
    rcases hn with rfl | rfl | rfl <;> refine ⟨fun s hs => ?_, by decide⟩ <;> cases hs <;> rfl
  · simp only [List.mem_cons, List.not_mem_nil, or_false] at hr
    rcases hr with rfl | rfl <;> decide

/-- The signature of a package with only one node. -/
def oneNode (n : Node) : Package := ⟨[⟨0, [n], [], []⟩]⟩

/-- **C68** Finding: the constraints of an alias are written but not read. -/
theorem C68_alias_constraints_removed : ∃ p q s, writePackage true p = some s ∧ readPackage s = .ok q ∧ q ≠ p := by
  let n (cs : List TermId) : Node := ⟨.declareAlias ⟨none, "a", [], cs, 0⟩, [], [], [], [], none⟩
  refine ⟨oneNode (n [0]), oneNode (n []), _, rfl, by decide +kernel, by decide⟩

/-- **C68** Finding: a node whose signature is the id for no term, which is the wildcard, panics when it is written with overflow
checks, and without them is read as a node without a signature. -/
theorem C68_wildcard_signature_panics : ∃ p q s, writePackage true p = none ∧ writePackage false p = some s ∧
    readPackage s = .ok q ∧ q ≠ p := by
  let n (t : Option TermId) : Node := ⟨.dfg, [], [], [], [], t⟩
  refine ⟨oneNode (n (some noTerm)), oneNode (n none), _, by decide +kernel, rfl, by decide +kernel, by decide⟩

/-- The messages of other versions. -/
example : ∃ s v, s.getPtr 1 = .struct v ∧ readPackage s = .versionError 1 1 :=
  ⟨(Struct.init 0 2).setPtr 1 (.struct (writeVersion 1 1)), _, rfl, by decide +kernel⟩

end Verif.Binary
