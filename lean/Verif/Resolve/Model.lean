import Verif.Resolve.Ast
import Verif.Scope.VarTable
import Verif.Scope.LinkTable
import Verif.Scope.SymbolTable
/-!
# Resolution of names

Models hugr-model/src/v0/ast/resolve.rs: the conversion of a module with names into tables. The three scope tables are
the models of `Verif.Scope`.
-/
namespace Verif.Resolve
open Verif
open Verif.Binary (NodeId LinkIndex RegionId TermId Literal)
open Verif.Scope (VarTable LinkTable SymbolTable)

/-- `Context`, resolve.rs:15-23. The arena is left out. The hash map `terms` is left out: its keys are the terms of the
module, since `insert_term` is only called where the term is entered into the map. The hash map `imports` is the list of
its entries in the order of their insertion. -/
structure State where
  nodes : List Binary.Node
  regions : List Binary.Region
  terms : List Binary.Term
  vars : VarTable
  links : LinkTable
  symbols : SymbolTable
  imports : List (String × NodeId)

/-- `ResolveError`, resolve.rs:362-373. -/
inductive ResolveError where
  | unknownVar (name : String)
  | duplicateVar (name : String)
  | duplicateSymbol (name : String)
  deriving DecidableEq

/-- The result of a call: a value and the new state, an error, or a panic. -/
inductive R (α : Type) where
  | ok (a : α) (s : State)
  | error (e : ResolveError)
  | panic

/-- Continues with the value and the state (the operator `?`). -/
def R.bind {α β : Type} (r : R α) (f : α → State → R β) : R β :=
  match r with
  | .ok a s => f a s
  | .error e => .error e
  | .panic => .panic

/-- `Context::new`, resolve.rs:26-36. -/
def State.new : State := ⟨[], [], [], VarTable.new, LinkTable.new, SymbolTable.new, []⟩

/-- `Node::default`, table/mod.rs:165-181. -/
def defaultNode : Binary.Node := ⟨.invalid, [], [], [], [], none⟩

/-- The node that imports a symbol, resolve.rs:343-348. -/
def importNode (name : String) : Binary.Node := ⟨.import name, [], [], [], [], none⟩

/-- `Region::default`, table/mod.rs:272-288. -/
def defaultRegion : Binary.Region := ⟨.dataFlow, [], [], [], [], none, none⟩

/-- `new` of the index types, table/mod.rs:407-412: panics from `u32::MAX` on. -/
def newId (n : Nat) : Option UInt32 := if n < 4294967295 then some (UInt32.ofNat n) else none

/-- `Module::insert_node`, table/mod.rs:93-97. -/
def insertNode (node : Binary.Node) (s : State) : R NodeId :=
  match newId s.nodes.length with
  | none => .panic
  | some id => .ok id { s with nodes := s.nodes ++ [node] }

/-- `Module::insert_region`, table/mod.rs:139-143. -/
def insertRegion (region : Binary.Region) (s : State) : R RegionId :=
  match newId s.regions.length with
  | none => .panic
  | some id => .ok id { s with regions := s.regions ++ [region] }

/-- Whether the bits are those of a NaN. -/
def isNaN (bits : UInt64) : Bool := decide (bits.toNat % 2 ^ 63 > 0x7FF0000000000000)

/-- Whether the bits are those of a zero, of either sign. -/
def isZero (bits : UInt64) : Bool := decide (bits.toNat % 2 ^ 63 = 0)

/-- The equality of floats wrapped in `OrderedFloat`: of numbers, with all NaNs equal. -/
def sameFloat (a b : UInt64) : Bool := a == b || (isNaN a && isNaN b) || (isZero a && isZero b)

/-- The derived equality of `Literal`, mod.rs:557-567. -/
def sameLiteral : Literal → Literal → Bool
  | .float a, .float b => sameFloat a b
  | a, b => decide (a = b)

/-- The derived equality of `Term`, table/mod.rs:326-362. -/
def sameTerm : Binary.Term → Binary.Term → Bool
  | .literal a, .literal b => sameLiteral a b
  | a, b => decide (a = b)

/-- The term with an equal key in the map of terms, or else a new term, resolve.rs:94-97. -/
def internTerm (term : Binary.Term) (s : State) : R TermId :=
  match s.terms.findIdx? (sameTerm term) with
  | some i =>
    match newId i with
    | none => .panic
    | some id => .ok id s
  | none =>
    match newId s.terms.length with
    | none => .panic
    | some id => .ok id { s with terms := s.terms ++ [term] }

/-- `Context::resolve_var`, resolve.rs:323-327. -/
def resolveVar (name : String) (s : State) : R (NodeId × UInt16) :=
  match s.vars.resolve name with
  | none => .panic
  | some (.var node index) => .ok (UInt32.ofNat node, UInt16.ofNat index) s
  | some _ => .error (.unknownVar name)

/-- `Context::resolve_symbol_name`, resolve.rs:335-349. -/
def resolveSymbolName (name : String) (s : State) : R NodeId :=
  match s.symbols.resolve name with
  | none => .panic
  | some (.node n) => .ok (UInt32.ofNat n) s
  | some _ =>
    match s.imports.lookup name with
    | some id => .ok id s
    | none =>
      (insertNode (importNode name) s).bind fun id s =>
        .ok id { s with imports := s.imports ++ [(name, id)] }

/-- `Context::resolve_link`, resolve.rs:224-226. -/
def resolveLink (name : String) (s : State) : R LinkIndex :=
  match s.links.useLink name with
  | some (links, .link i) => .ok (UInt32.ofNat i) { s with links := links }
  | _ => .panic

/-- `Context::resolve_links`, resolve.rs:220-222. -/
def resolveLinks : List String → State → R (List LinkIndex)
  | [], s => .ok [] s
  | x :: xs, s =>
    (resolveLink x s).bind fun i s => (resolveLinks xs s).bind fun is s => .ok (i :: is) s

/-- The ids for the nodes of a region, resolve.rs:118-120. -/
def allocNodes : Nat → State → R (List NodeId)
  | 0, s => .ok [] s
  | n + 1, s =>
    (insertNode defaultNode s).bind fun id s => (allocNodes n s).bind fun ids s => .ok (id :: ids) s

/-- The forward declarations of the symbols of a region, resolve.rs:126-132. -/
def declareNodes : List NodeId → List Node → State → R Unit
  | [], [], s => .ok () s
  | id :: ids, node :: nodes, s =>
    match node.operation.symbolName with
    | none => declareNodes ids nodes s
    | some name =>
      match s.symbols.insert name id.toNat with
      | some (symbols, .unit) => declareNodes ids nodes { s with symbols := symbols }
      | some _ => .error (.duplicateSymbol name)
      | none => .panic
  | _, _, _ => .panic

/-- Declares a variable, resolve.rs:316-318. -/
def declareVar (name : String) (s : State) : R Unit :=
  match s.vars.insert name with
  | some (vars, .var _ _) => .ok () { s with vars := vars }
  | some _ => .error (.duplicateVar name)
  | none => .panic

/-- Leaves the variable scope, resolve.rs:205-207. -/
def exitVars (s : State) : R Unit :=
  match s.vars.exit with
  | some vars => .ok () { s with vars := vars }
  | none => .panic

/-- Leaves the symbol scope, resolve.rs:55 and 271. -/
def exitSymbols (s : State) : R Unit :=
  match s.symbols.exit with
  | some symbols => .ok () { s with symbols := symbols }
  | none => .panic

/-- Leaves the link scope with the counts of links and ports, resolve.rs:54 and 267. -/
def exitLinks (s : State) : R Binary.RegionScope :=
  match s.links.exit with
  | some (links, .counts l p) => .ok ⟨UInt32.ofNat l, UInt32.ofNat p⟩ { s with links := links }
  | _ => .panic

/-- Enters the scopes of a region, resolve.rs:252-257. -/
def enterRegion (id : RegionId) (closed : Bool) (s : State) : State :=
  { s with
    symbols := s.symbols.enter id.toNat
    links := if closed then s.links.enter id.toNat else s.links }

/-- Leaves the scopes of a region, resolve.rs:264-271. -/
def exitRegion (closed : Bool) (s : State) : R (Option Binary.RegionScope) :=
  if closed then (exitLinks s).bind fun sc s => (exitSymbols s).bind fun _ s => .ok (some sc) s
  else (exitSymbols s).bind fun _ s => .ok none s

/-- The table operation for an operation without data, resolve.rs:159-164. -/
def Simple.toTable : Simple → Binary.Operation
  | .invalid => .invalid
  | .dfg => .dfg
  | .cfg => .cfg
  | .block => .block
  | .tailLoop => .tailLoop
  | .conditional => .conditional

/-- The table operation for a declaration, resolve.rs:170-190. -/
def Declaration.toTable : Declaration → Binary.Symbol → Binary.Operation
  | .func, s => .declareFunc s
  | .alias, s => .declareAlias s
  | .constructor, s => .declareConstructor s
  | .operation, s => .declareOperation s

/-- Whether the regions of a node are closed: `scope_closure`, resolve.rs:156-168. -/
def Operation.closed : Operation → Bool
  | .defineFunc _ => true
  | _ => false

/-- Whether a node opens a variable scope, resolve.rs:152. -/
def Operation.hasSymbol (o : Operation) : Bool := o.symbol.isSome

mutual
/-- `Context::resolve_term`, resolve.rs:76-98. -/
def resolveTerm : Term → State → R TermId
  | .wildcard, s => internTerm .wildcard s
  | .var x, s => (resolveVar x s).bind fun v s => internTerm (.var v.1 v.2) s
  | .apply x ts, s =>
    (resolveSymbolName x s).bind fun n s => (resolveTerms ts s).bind fun ids s => internTerm (.apply n ids) s
  | .list ps, s => (resolveParts ps s).bind fun ids s => internTerm (.list ids) s
  | .literal l, s => internTerm (.literal l) s
  | .tuple ps, s => (resolveParts ps s).bind fun ids s => internTerm (.tuple ids) s
  | .func r, s => (resolveRegion r true s).bind fun id s => internTerm (.func id) s
/-- `Context::resolve_terms`, resolve.rs:72-74. -/
def resolveTerms : List Term → State → R (List TermId)
  | [], s => .ok [] s
  | t :: ts, s => (resolveTerm t s).bind fun id s => (resolveTerms ts s).bind fun ids s => .ok (id :: ids) s
/-- An optional term, resolve.rs:199-202 and 243-246. -/
def resolveOption : Option Term → State → R (Option TermId)
  | none, s => .ok none s
  | some t, s => (resolveTerm t s).bind fun id s => .ok (some id) s
/-- `Context::resolve_seq_part`, resolve.rs:108-113. -/
def resolvePart : SeqPart → State → R Binary.SeqPart
  | .item t, s => (resolveTerm t s).bind fun id s => .ok (.item id) s
  | .splice t, s => (resolveTerm t s).bind fun id s => .ok (.splice id) s
/-- `Context::resolve_seq_parts`, resolve.rs:101-106. -/
def resolveParts : List SeqPart → State → R (List Binary.SeqPart)
  | [], s => .ok [] s
  | p :: ps, s => (resolvePart p s).bind fun id s => (resolveParts ps s).bind fun ids s => .ok (id :: ids) s
/-- `Context::resolve_param`, resolve.rs:312-321. -/
def resolveParam : Param → State → R Binary.Param
  | .mk x t, s => (resolveTerm t s).bind fun id s => (declareVar x s).bind fun _ s => .ok ⟨x, id⟩ s
/-- `Context::resolve_params`, resolve.rs:301-306. -/
def resolveParams : List Param → State → R (List Binary.Param)
  | [], s => .ok [] s
  | p :: ps, s => (resolveParam p s).bind fun q s => (resolveParams ps s).bind fun qs s => .ok (q :: qs) s
/-- `Context::resolve_symbol`, resolve.rs:280-294. -/
def resolveSymbol : Symbol → State → R Binary.Symbol
  | .mk v x ps cs t, s =>
    (resolveParams ps s).bind fun qs s => (resolveTerms cs s).bind fun ids s =>
      (resolveTerm t s).bind fun id s => .ok ⟨v, x, qs, ids, id⟩ s
/-- The operation of a node, resolve.rs:158-195. -/
def resolveOperation : Operation → State → R Binary.Operation
  | .simple k, s => .ok k.toTable s
  | .defineFunc y, s => (resolveSymbol y s).bind fun q s => .ok (.defineFunc q) s
  | .declare k y, s => (resolveSymbol y s).bind fun q s => .ok (k.toTable q) s
  | .defineAlias y t, s =>
    (resolveSymbol y s).bind fun q s => (resolveTerm t s).bind fun id s => .ok (.defineAlias q id) s
  | .custom t, s => (resolveTerm t s).bind fun id s => .ok (.custom id) s
  | .import x, s => .ok (.import x) s
/-- `Context::resolve_node`, resolve.rs:147-218. -/
def resolveNode : Node → NodeId → State → R Unit
  | .mk o ins outs rs ms sig, id, s =>
    (resolveLinks ins s).bind fun inputs s => (resolveLinks outs s).bind fun outputs s =>
    (resolveOperation o (if o.hasSymbol then { s with vars := s.vars.enter id.toNat } else s)).bind fun op s =>
    (resolveTerms ms s).bind fun ms' s => (resolveRegions rs o.closed s).bind fun rs' s =>
    (resolveOption sig s).bind fun sig' s =>
    (if o.hasSymbol then exitVars s else .ok () s).bind fun _ s =>
      if id.toNat < s.nodes.length then
        .ok () { s with nodes := s.nodes.set id.toNat ⟨op, inputs, outputs, rs', ms', sig'⟩ }
      else .panic
/-- The nodes of a region, resolve.rs:135-137. -/
def resolveNodeList : List Node → List NodeId → State → R Unit
  | [], [], s => .ok () s
  | n :: ns, id :: ids, s => (resolveNode n id s).bind fun _ s => resolveNodeList ns ids s
  | _, _, _ => .panic
/-- `Context::resolve_region`, resolve.rs:236-287. -/
def resolveRegion : Region → Bool → State → R RegionId
  | .mk k srcs tgts cs ms sig, closed, s =>
    (resolveTerms ms s).bind fun ms' s => (resolveOption sig s).bind fun sig' s =>
    (insertRegion defaultRegion s).bind fun id s =>
    (resolveLinks srcs (enterRegion id closed s)).bind fun sources s =>
    (resolveLinks tgts s).bind fun targets s =>
    (allocNodes cs.length s).bind fun ids s => (declareNodes ids cs s).bind fun _ s =>
    (resolveNodeList cs ids s).bind fun _ s =>
    (exitRegion closed s).bind fun scope s =>
      if id.toNat < s.regions.length then
        .ok id { s with regions := s.regions.set id.toNat ⟨k, sources, targets, ids, ms', sig', scope⟩ }
      else .panic
/-- `Context::resolve_regions`, resolve.rs:228-234. -/
def resolveRegions : List Region → Bool → State → R (List RegionId)
  | [], _, s => .ok [] s
  | r :: rs, closed, s =>
    (resolveRegion r closed s).bind fun id s => (resolveRegions rs closed s).bind fun ids s => .ok (id :: ids) s
end

/-- `Context::resolve_module`, resolve.rs:38-70. The hash map `imports` is drained in an unknown order: the result is
given before the import nodes are appended to the children of the root, together with these nodes. -/
def resolveRoot : Region → State → R (RegionId × List NodeId × List TermId × Binary.RegionScope)
  | .mk _ _ _ cs ms _, s =>
    (insertRegion defaultRegion s).bind fun root s =>
    (allocNodes cs.length (enterRegion root true s)).bind fun ids s => (declareNodes ids cs s).bind fun _ s =>
    (resolveNodeList cs ids s).bind fun _ s => (resolveTerms ms s).bind fun ms' s =>
    (exitLinks s).bind fun sc s => (exitSymbols s).bind fun _ s => .ok (root, ids, ms', sc) s

/-- The result of `Module::resolve`. -/
inductive Resolved where
  | ok (m : Binary.Module)
  | error (e : ResolveError)
  | panic

/-- `Module::resolve`, ast/mod.rs:90-97, with the order in which the hash map `imports` is drained. -/
def resolve (drain : List NodeId → List NodeId) (m : Module) : Resolved :=
  match resolveRoot m.root State.new with
  | .panic => .panic
  | .error e => .error e
  | .ok (root, ids, ms, sc) s =>
    if root.toNat < s.regions.length then
      .ok ⟨root, s.nodes,
        s.regions.set root.toNat ⟨.module, [], [], ids ++ drain (s.imports.map Prod.snd), ms, none, some sc⟩,
        s.terms⟩
    else .panic

end Verif.Resolve
