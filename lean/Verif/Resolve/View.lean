import Verif.Resolve.Model
/-!
# Tables back to names

Models hugr-model/src/v0/ast/view.rs and `Module::as_ast`. The recursion follows the ids in the tables, so it is given
fuel; running out of it is a result of its own.
-/
namespace Verif.Resolve
open Verif
open Verif.Binary (NodeId LinkIndex RegionId TermId Literal)

/-- The result of a view: a value, `None`, a panic, or not enough fuel. -/
inductive V (α : Type) where
  | ok (a : α)
  | none
  | panic
  | more

/-- The operator `?`. -/
def V.bind {α β : Type} (r : V α) (f : α → V β) : V β :=
  match r with
  | .ok a => f a
  | .none => .none
  | .panic => .panic
  | .more => .more

/-- Views of slices, table/view.rs:31-66. -/
def collect {α β : Type} (f : α → V β) : List α → V (List β)
  | [] => .ok []
  | a :: as => (f a).bind fun b => (collect f as).bind fun bs => .ok (b :: bs)

/-- Views of options, table/view.rs:20-30. -/
def collectOption {α β : Type} (f : α → V β) : Option α → V (Option β)
  | .none => .ok .none
  | some a => (f a).bind fun b => .ok (some b)

/-- `Module::get_term`, table/mod.rs:104-110: an invalid id stands for a wildcard. -/
def getTerm (m : Binary.Module) (id : TermId) : Option Binary.Term :=
  if id.toNat < 4294967295 then m.terms[id.toNat]? else some .wildcard

/-- The symbol declared by an operation, view.rs:140-148. -/
def tableSymbol : Binary.Operation → Option Binary.Symbol
  | .defineFunc s => some s
  | .declareFunc s => some s
  | .defineAlias s _ => some s
  | .declareAlias s => some s
  | .declareConstructor s => some s
  | .declareOperation s => some s
  | _ => none

/-- `Operation::symbol` of the tables, table/mod.rs:251-262: the name of the symbol of an operation. -/
def tableSymbolName : Binary.Operation → Option String
  | .import x => some x
  | o => (tableSymbol o).map (·.name)

/-- The view of a variable, view.rs:136-153: panics when the node has too few parameters. -/
def viewVar (m : Binary.Module) (node : NodeId) (index : UInt16) : V String :=
  match m.nodes[node.toNat]? with
  | none => .none
  | some n =>
    match tableSymbol n.operation with
    | none => .none
    | some s =>
      match s.params[index.toNat]? with
      | none => .panic
      | some p => .ok p.name

/-- The view of a symbol name, view.rs:155-161. -/
def viewSymbolName (m : Binary.Module) (id : NodeId) : V String :=
  match m.nodes[id.toNat]? with
  | none => .none
  | some n =>
    match tableSymbolName n.operation with
    | none => .none
    | some x => .ok x

/-- The view of a link, view.rs:76-80: `LinkName::new_index`, mod.rs:521-524. -/
def viewLink (i : LinkIndex) : String := toString i.toNat

/-- The view of a part of a sequence, view.rs:82-89. -/
def viewPart (f : TermId → V Term) : Binary.SeqPart → V SeqPart
  | .item t => (f t).bind fun t => .ok (.item t)
  | .splice t => (f t).bind fun t => .ok (.splice t)

/-- The view of a parameter, view.rs:109-115. -/
def viewParam (f : TermId → V Term) (p : Binary.Param) : V Param :=
  (f p.type).bind fun t => .ok (.mk p.name t)

/-- The view of a symbol, view.rs:91-107. -/
def viewSymbol (f : TermId → V Term) (s : Binary.Symbol) : V Symbol :=
  (collect (viewParam f) s.params).bind fun ps => (collect f s.constraints).bind fun cs =>
    (f s.signature).bind fun t => .ok (.mk s.visibility s.name ps cs t)

/-- The view of an operation, view.rs:29-57. -/
def viewOperation (f : TermId → V Term) : Binary.Operation → V Operation
  | .invalid => .ok (.simple .invalid)
  | .dfg => .ok (.simple .dfg)
  | .cfg => .ok (.simple .cfg)
  | .block => .ok (.simple .block)
  | .defineFunc s => (viewSymbol f s).bind fun s => .ok (.defineFunc s)
  | .declareFunc s => (viewSymbol f s).bind fun s => .ok (.declare .func s)
  | .custom t => (f t).bind fun t => .ok (.custom t)
  | .defineAlias s t => (viewSymbol f s).bind fun s => (f t).bind fun t => .ok (.defineAlias s t)
  | .declareAlias s => (viewSymbol f s).bind fun s => .ok (.declare .alias s)
  | .tailLoop => .ok (.simple .tailLoop)
  | .conditional => .ok (.simple .conditional)
  | .declareConstructor s => (viewSymbol f s).bind fun s => .ok (.declare .constructor s)
  | .declareOperation s => (viewSymbol f s).bind fun s => .ok (.declare .operation s)
  | .import x => .ok (.import x)

mutual
/-- The view of a term, view.rs:6-23. -/
def viewTerm (m : Binary.Module) : Nat → TermId → V Term
  | 0, _ => .more
  | n + 1, id =>
    match getTerm m id with
    | none => .none
    | some .wildcard => .ok .wildcard
    | some (.var node i) => (viewVar m node i).bind fun x => .ok (.var x)
    | some (.apply y ts) =>
      (viewSymbolName m y).bind fun x => (collect (viewTerm m n) ts).bind fun ts => .ok (.apply x ts)
    | some (.func r) => (viewRegion m n r).bind fun r => .ok (.func r)
    | some (.list ps) => (collect (viewPart (viewTerm m n)) ps).bind fun ps => .ok (.list ps)
    | some (.literal l) => .ok (.literal l)
    | some (.tuple ps) => (collect (viewPart (viewTerm m n)) ps).bind fun ps => .ok (.tuple ps)
/-- The view of a node, view.rs:25-74. -/
def viewNode (m : Binary.Module) : Nat → NodeId → V Node
  | 0, _ => .more
  | n + 1, id =>
    match m.nodes[id.toNat]? with
    | none => .none
    | some node =>
      (viewOperation (viewTerm m n) node.operation).bind fun o =>
      (collect (viewTerm m n) node.meta).bind fun ms =>
      (collectOption (viewTerm m n) node.signature).bind fun sig =>
      (collect (viewRegion m n) node.regions).bind fun rs =>
        .ok (.mk o (node.inputs.map viewLink) (node.outputs.map viewLink) rs ms sig)
/-- The view of a region, view.rs:117-134. -/
def viewRegion (m : Binary.Module) : Nat → RegionId → V Region
  | 0, _ => .more
  | n + 1, id =>
    match m.regions[id.toNat]? with
    | none => .none
    | some r =>
      (collect (viewTerm m n) r.meta).bind fun ms =>
      (collect (viewNode m n) r.children).bind fun cs =>
      (collectOption (viewTerm m n) r.signature).bind fun sig =>
        .ok (.mk r.kind (r.sources.map viewLink) (r.targets.map viewLink) cs ms sig)
end

/-- `Module::as_ast`, table/mod.rs:154-157. -/
def asAst (m : Binary.Module) (fuel : Nat) : V Module :=
  (viewRegion m fuel m.root).bind fun r => .ok ⟨r⟩

end Verif.Resolve
