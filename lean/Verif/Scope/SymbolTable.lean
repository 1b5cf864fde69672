/-!
# Model of `hugr_model::v0::scope::SymbolTable`

Source: `/repo/hugr-model/src/v0/scope/symbol.rs`. An `IndexMap` is modelled by
the list of its entries in index order.
-/
namespace Verif.Scope

/-- `IndexMap::get_full`: index and value of the entry with the given key. -/
def imFind {K V : Type} [DecidableEq K] : List (K × V) → K → Option (Nat × V)
  | [], _ => none
  | (k', v) :: l, k => if k' = k then some (0, v) else (imFind l k).map fun p => (p.1 + 1, p.2)

/-- `IndexMap::insert_full`: replaces the value of an existing entry in place or
appends a new entry; returns the index and the old value. -/
def imInsert {K V : Type} [DecidableEq K] :
    List (K × V) → K → V → List (K × V) × Nat × Option V
  | [], k, v => ([(k, v)], 0, none)
  | (k', v') :: l, k, v =>
    if k' = k then ((k', v) :: l, 0, some v')
    else ((k', v') :: (imInsert l k v).1, (imInsert l k v).2.1 + 1, (imInsert l k v).2.2)

/-- `IndexMap::index_mut` by position: overwrite the value at an index. -/
def imSet {K V : Type} : List (K × V) → Nat → V → List (K × V)
  | [], _, _ => []
  | (k, _) :: l, 0, v => (k, v) :: l
  | e :: l, i + 1, v => e :: imSet l i v

/-- `Binding`, symbol.rs:167-182 (`ScopeDepth = u16`, `BindingIndex` and
`SymbolIndex = usize`). -/
structure Binding where
  scopeDepth : Nat
  shadows : Option Nat
  symbolIndex : Nat
deriving DecidableEq, Repr

/-- `SymbolTable`, symbol.rs:43-47. A scope is its region and the length of the
`bindings` stack when it was entered (symbol.rs:184-188). Scopes are in entry
order (innermost last). -/
structure SymbolTable where
  symbols : List (String × Nat)
  bindings : List (Nat × Binding)
  scopes : List (Nat × Nat)
deriving DecidableEq, Repr

/-- Results of calls on a symbol table. -/
inductive SymOut where
  | unit
  | node (n : Nat)
  | bool (b : Bool)
  | unknown (name : String)
  | duplicate (name : String) (node previous : Nat)
  | depth (d : Option Nat)
  | region (r : Option Nat)
deriving DecidableEq, Repr

namespace SymbolTable

/-- `SymbolTable::new`, symbol.rs:51-54. -/
def new : SymbolTable := ⟨[], [], []⟩

/-- `SymbolTable::enter`, symbol.rs:57-64. -/
def enter (t : SymbolTable) (region : Nat) : SymbolTable :=
  { t with scopes := (imInsert t.scopes region t.bindings.length).1 }

/-- The body of the loop in `SymbolTable::exit`, symbol.rs:75-82: pop one binding
and restore what it shadowed. The `debug_assert_eq!` is modelled as a panic. -/
def popBinding (t : SymbolTable) : Option SymbolTable :=
  match t.bindings.getLast? with
  | none => none
  | some (_, b) =>
    let bindings := t.bindings.dropLast
    match b.shadows with
    | some sh =>
      if b.symbolIndex < t.symbols.length then
        some { t with symbols := imSet t.symbols b.symbolIndex sh, bindings := bindings }
      else none
    | none =>
      match t.symbols.getLast? with
      | none => none
      | some last =>
        if last.2 = bindings.length then
          some { t with symbols := t.symbols.dropLast, bindings := bindings }
        else none

/-- The loop in `SymbolTable::exit`, symbol.rs:74-83. -/
def popBindings : Nat → SymbolTable → Option SymbolTable
  | 0, t => some t
  | n + 1, t => (popBinding t).bind (popBindings n)

/-- `SymbolTable::exit`, symbol.rs:71-84. -/
def exit (t : SymbolTable) : Option SymbolTable :=
  match t.scopes.getLast? with
  | none => none
  | some (_, bindingStack) =>
    popBindings (t.bindings.length - bindingStack) { t with scopes := t.scopes.dropLast }

/-- `SymbolTable::insert`, symbol.rs:96-119. `scopes.len() as u16 - 1` truncates
and then panics on underflow (debug build). -/
def insert (t : SymbolTable) (name : String) (node : Nat) : Option (SymbolTable × SymOut) :=
  if t.scopes.length % 65536 = 0 then none
  else
    let scopeDepth := t.scopes.length % 65536 - 1
    let r := imInsert t.symbols name t.bindings.length
    let fresh := { t with
      symbols := r.1
      bindings := (imInsert t.bindings node ⟨scopeDepth, r.2.2, r.2.1⟩).1 }
    match r.2.2 with
    | none => some (fresh, .unit)
    | some shadowed =>
      match t.bindings[shadowed]? with
      | none => none
      | some (shadowedNode, b) =>
        if b.scopeDepth = scopeDepth then
          some ({ t with symbols := (imInsert r.1 name shadowed).1 },
            .duplicate name node shadowedNode)
        else some (fresh, .unit)

/-- `SymbolTable::is_visible`, symbol.rs:123-130. Indexing panics when out of
range. Note the comparison with `symbol_index`. -/
def isVisible (t : SymbolTable) (node : Nat) : Option Bool :=
  match imFind t.bindings node with
  | none => some false
  | some (_, b) =>
    match t.symbols[b.symbolIndex]? with
    | none => none
    | some e => some (e.2 == b.symbolIndex)

/-- `SymbolTable::resolve`, symbol.rs:133-143. -/
def resolve (t : SymbolTable) (name : String) : Option SymOut :=
  match imFind t.symbols name with
  | none => some (.unknown name)
  | some (_, index) =>
    match t.bindings[index]? with
    | none => none
    | some (node, _) => some (.node node)

/-- `SymbolTable::region_to_depth`, symbol.rs:147-149 (the cast to `u16`
truncates). -/
def regionToDepth (t : SymbolTable) (region : Nat) : Option Nat :=
  (imFind t.scopes region).map (·.1 % 65536)

/-- `SymbolTable::depth_to_region`, symbol.rs:153-156. -/
def depthToRegion (t : SymbolTable) (depth : Nat) : Option Nat :=
  (t.scopes[depth]?).map (·.1)

end SymbolTable

/-- Calls on a symbol table. -/
inductive SymOp where
  | enter (region : Nat)
  | exit
  | insert (name : String) (node : Nat)
  | resolve (name : String)
  | regionToDepth (region : Nat)
  | depthToRegion (depth : Nat)
  | isVisible (node : Nat)

/-- One call on the modelled table; `none` is a panic. -/
def SymbolTable.step (t : SymbolTable) : SymOp → Option (SymbolTable × SymOut)
  | .enter r => some (t.enter r, .unit)
  | .exit => t.exit.map (·, .unit)
  | .insert s n => t.insert s n
  | .resolve s => (t.resolve s).map (t, ·)
  | .regionToDepth r => some (t, .depth (t.regionToDepth r))
  | .depthToRegion d => some (t, .region (t.depthToRegion d))
  | .isVisible n => (t.isVisible n).map fun b => (t, .bool b)

end Verif.Scope
