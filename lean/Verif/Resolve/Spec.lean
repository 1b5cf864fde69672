import Verif.Resolve.Ast
/-!
# Lexical scoping

What it means that tables represent a module with names, that a module is well scoped, and that two modules are the same
up to the names of links.
-/
namespace Verif.Resolve
open Verif
open Verif.Binary (NodeId LinkIndex RegionId TermId Literal)

/-! ## Scopes -/

/-- The innermost scope that has the name decides which node it stands for. -/
def lookupScopes : List (List (String × NodeId)) → String → Option NodeId
  | [], _ => none
  | f :: fs, x =>
    match f.lookup x with
    | some n => some n
    | none => lookupScopes fs x

/-- What names stand for at some place: the symbols of the enclosing regions, innermost first; the node whose parameters
are in scope, with their names; and the symbols that are imported. -/
structure Env where
  scopes : List (List (String × NodeId))
  vars : Option (NodeId × List String)
  imports : List (String × NodeId)

/-- The node that a symbol stands for: the innermost definition, and an import only when there is none. -/
def Env.symbol (e : Env) (x : String) : Option NodeId :=
  match lookupScopes e.scopes x with
  | some n => some n
  | none => e.imports.lookup x

/-- The symbols that the nodes of a region introduce. -/
def introduced : List Node → List NodeId → List (String × NodeId)
  | n :: ns, id :: ids =>
    match n.operation.symbolName with
    | some x => (x, id) :: introduced ns ids
    | none => introduced ns ids
  | _, _ => []

/-! ## Links -/

mutual
/-- The names of the links at the ports of a node, and of its regions unless it is a function. -/
def nodeLinks : Node → List String
  | .mk (.defineFunc _) ins outs _ _ _ => ins ++ outs
  | .mk _ ins outs rs _ _ => ins ++ outs ++ regionsLinks rs
/-- The names of the links at the ports of regions. -/
def regionsLinks : List Region → List String
  | [] => []
  | r :: rs => regionLinks r ++ regionsLinks rs
/-- The names of the links at the ports of a region and of what is in it. -/
def regionLinks : Region → List String
  | .mk _ srcs tgts cs _ _ => srcs ++ tgts ++ nodesLinks cs
/-- The names of the links at the ports of nodes. -/
def nodesLinks : List Node → List String
  | [] => []
  | n :: ns => nodeLinks n ++ nodesLinks ns
end

/-- The links are the positions of the names. -/
def LinksAre (names : List String) : List String → List LinkIndex → Prop
  | [], [] => True
  | x :: xs, i :: is => names[i.toNat]? = some x ∧ LinksAre names xs is
  | _, _ => False

/-- The scope of a closed region: its distinct link names, and how many there are of them and of ports. -/
def ScopeIs (names used : List String) (scope : Option Binary.RegionScope) : Prop :=
  names.Nodup ∧ (∀ x, x ∈ names ↔ x ∈ used) ∧
    ∃ sc, scope = some sc ∧ sc.links.toNat = names.length ∧ sc.ports.toNat = used.length

/-! ## Literals -/

/-- Equal as literals of the code: floats are equal as numbers, and all NaNs are equal. -/
def LiteralEq : Literal → Literal → Prop
  | .float a, .float b =>
    a = b ∨ (a.toNat % 2 ^ 63 > 0x7FF0000000000000 ∧ b.toNat % 2 ^ 63 > 0x7FF0000000000000) ∨
      (a.toNat % 2 ^ 63 = 0 ∧ b.toNat % 2 ^ 63 = 0)
  | a, b => a = b

/-! ## Representation -/

/-- The table operation for an operation without data. -/
def simpleTable : Simple → Binary.Operation
  | .invalid => .invalid
  | .dfg => .dfg
  | .cfg => .cfg
  | .block => .block
  | .tailLoop => .tailLoop
  | .conditional => .conditional

/-- The table operation for a declaration. -/
def declarationTable : Declaration → Binary.Symbol → Binary.Operation
  | .func, s => .declareFunc s
  | .alias, s => .declareAlias s
  | .constructor, s => .declareConstructor s
  | .operation, s => .declareOperation s

/-- Inside a node that declares a symbol its parameters are in scope, and no others. -/
def Env.inside (e : Env) (id : NodeId) (o : Operation) : Env :=
  match o.symbol with
  | some y => { e with vars := some (id, y.params.map Param.name) }
  | none => e

mutual
/-- The term of the table represents the term. -/
def RepTerm (m : Binary.Module) (e : Env) : Term → TermId → Prop
  | .wildcard, id => m.terms[id.toNat]? = some .wildcard
  | .var x, id => ∃ n i names, m.terms[id.toNat]? = some (.var n i) ∧ e.vars = some (n, names) ∧
      names[i.toNat]? = some x
  | .apply x ts, id => ∃ n ids, m.terms[id.toNat]? = some (.apply n ids) ∧ e.symbol x = some n ∧ RepTerms m e ts ids
  | .list ps, id => ∃ ids, m.terms[id.toNat]? = some (.list ids) ∧ RepParts m e ps ids
  | .literal l, id => ∃ l', m.terms[id.toNat]? = some (.literal l') ∧ LiteralEq l l'
  | .tuple ps, id => ∃ ids, m.terms[id.toNat]? = some (.tuple ids) ∧ RepParts m e ps ids
  | .func r, id => ∃ rid, m.terms[id.toNat]? = some (.func rid) ∧ RepRegion m e none r rid
/-- The terms of the table represent the terms. -/
def RepTerms (m : Binary.Module) (e : Env) : List Term → List TermId → Prop
  | [], [] => True
  | t :: ts, id :: ids => RepTerm m e t id ∧ RepTerms m e ts ids
  | _, _ => False
/-- The same for an optional term. -/
def RepOption (m : Binary.Module) (e : Env) : Option Term → Option TermId → Prop
  | none, none => True
  | some t, some id => RepTerm m e t id
  | _, _ => False
/-- The same for a part of a sequence. -/
def RepPart (m : Binary.Module) (e : Env) : SeqPart → Binary.SeqPart → Prop
  | .item t, .item id => RepTerm m e t id
  | .splice t, .splice id => RepTerm m e t id
  | _, _ => False
/-- The same for the parts of a sequence. -/
def RepParts (m : Binary.Module) (e : Env) : List SeqPart → List Binary.SeqPart → Prop
  | [], [] => True
  | p :: ps, q :: qs => RepPart m e p q ∧ RepParts m e ps qs
  | _, _ => False
/-- The parameters of a node: the type of each can use the parameters before it. -/
def RepParams (m : Binary.Module) (e : Env) (id : NodeId) : List String → List Param → List Binary.Param → Prop
  | _, [], [] => True
  | before, p :: ps, q :: qs =>
    RepParam m { e with vars := some (id, before) } p q ∧ p.name ∉ before ∧
      RepParams m e id (before ++ [p.name]) ps qs
  | _, _, _ => False
/-- A parameter. -/
def RepParam (m : Binary.Module) (e : Env) : Param → Binary.Param → Prop
  | .mk x t, q => q.name = x ∧ RepTerm m e t q.type
/-- The symbol declared by a node: all parameters are in scope in the constraints and in the signature. -/
def RepSymbol (m : Binary.Module) (e : Env) (id : NodeId) : Symbol → Binary.Symbol → Prop
  | .mk v x ps cs t, q => q.visibility = v ∧ q.name = x ∧ RepParams m e id [] ps q.params ∧
      RepTerms m { e with vars := some (id, ps.map Param.name) } cs q.constraints ∧
      RepTerm m { e with vars := some (id, ps.map Param.name) } t q.signature
/-- The operation of a node. -/
def RepOperation (m : Binary.Module) (e : Env) (id : NodeId) : Operation → Binary.Operation → Prop
  | .simple k, o => o = simpleTable k
  | .defineFunc y, o => ∃ q, o = .defineFunc q ∧ RepSymbol m e id y q
  | .declare k y, o => ∃ q, o = declarationTable k q ∧ RepSymbol m e id y q
  | .defineAlias y t, o => ∃ q tid, o = .defineAlias q tid ∧ RepSymbol m e id y q ∧
      RepTerm m { e with vars := some (id, y.params.map Param.name) } t tid
  | .custom t, o => ∃ tid, o = .custom tid ∧ RepTerm m e t tid
  | .import x, o => o = .import x
/-- A node in a region whose links are numbered by the names. The regions of functions are closed. -/
def RepNode (m : Binary.Module) (e : Env) (names : List String) : Node → NodeId → Prop
  | .mk o ins outs rs ms sig, id => ∃ n, m.nodes[id.toNat]? = some n ∧
      LinksAre names ins n.inputs ∧ LinksAre names outs n.outputs ∧ RepOperation m e id o n.operation ∧
      RepTerms m (e.inside id o) ms n.meta ∧ RepOption m (e.inside id o) sig n.signature ∧
      RepRegions m (e.inside id o) (match o with | .defineFunc _ => none | _ => some names) rs n.regions
/-- Nodes in a region. -/
def RepNodes (m : Binary.Module) (e : Env) (names : List String) : List Node → List NodeId → Prop
  | [], [] => True
  | n :: ns, id :: ids => RepNode m e names n id ∧ RepNodes m e names ns ids
  | _, _ => False
/-- A region: the symbols of its nodes are distinct and in scope in all of them. The links are those of the region around
it, or else the region is closed and has links of its own. -/
def RepRegion (m : Binary.Module) (e : Env) (outer : Option (List String)) : Region → RegionId → Prop
  | .mk k srcs tgts cs ms sig, id => ∃ r names, m.regions[id.toNat]? = some r ∧ r.kind = k ∧
      RepTerms m e ms r.meta ∧ RepOption m e sig r.signature ∧
      (match outer with
        | some around => names = around ∧ r.scope = none
        | none => ScopeIs names (srcs ++ tgts ++ nodesLinks cs) r.scope) ∧
      LinksAre names srcs r.sources ∧ LinksAre names tgts r.targets ∧
      ((introduced cs r.children).map Prod.fst).Nodup ∧
      RepNodes m { e with scopes := introduced cs r.children :: e.scopes } names cs r.children
/-- The regions of a node. -/
def RepRegions (m : Binary.Module) (e : Env) (outer : Option (List String)) : List Region → List RegionId → Prop
  | [], [] => True
  | r :: rs, id :: ids => RepRegion m e outer r id ∧ RepRegions m e outer rs ids
  | _, _ => False
end

/-! ## Free symbols -/

/-- The names of the symbols that the nodes of a region introduce. -/
def introducedNames (ns : List Node) : List String := ns.filterMap fun n => n.operation.symbolName

mutual
/-- The symbol is used, and not where it is introduced around the use. -/
def FreeTerm (x : String) : Term → Prop
  | .wildcard => False
  | .var _ => False
  | .apply y ts => y = x ∨ FreeTerms x ts
  | .list ps => FreeParts x ps
  | .literal _ => False
  | .tuple ps => FreeParts x ps
  | .func r => FreeRegion x r
/-- The same for terms. -/
def FreeTerms (x : String) : List Term → Prop
  | [] => False
  | t :: ts => FreeTerm x t ∨ FreeTerms x ts
/-- The same for an optional term. -/
def FreeOption (x : String) : Option Term → Prop
  | none => False
  | some t => FreeTerm x t
/-- The same for a part of a sequence. -/
def FreePart (x : String) : SeqPart → Prop
  | .item t => FreeTerm x t
  | .splice t => FreeTerm x t
/-- The same for the parts of a sequence. -/
def FreeParts (x : String) : List SeqPart → Prop
  | [] => False
  | p :: ps => FreePart x p ∨ FreeParts x ps
/-- The same for a parameter. -/
def FreeParam (x : String) : Param → Prop
  | .mk _ t => FreeTerm x t
/-- The same for parameters. -/
def FreeParams (x : String) : List Param → Prop
  | [] => False
  | p :: ps => FreeParam x p ∨ FreeParams x ps
/-- The same for a symbol. -/
def FreeSymbol (x : String) : Symbol → Prop
  | .mk _ _ ps cs t => FreeParams x ps ∨ FreeTerms x cs ∨ FreeTerm x t
/-- The same for an operation. -/
def FreeOperation (x : String) : Operation → Prop
  | .simple _ => False
  | .defineFunc y => FreeSymbol x y
  | .declare _ y => FreeSymbol x y
  | .defineAlias y t => FreeSymbol x y ∨ FreeTerm x t
  | .custom t => FreeTerm x t
  | .import _ => False
/-- The same for a node. -/
def FreeNode (x : String) : Node → Prop
  | .mk o _ _ rs ms sig => FreeOperation x o ∨ FreeTerms x ms ∨ FreeRegions x rs ∨ FreeOption x sig
/-- The same for nodes. -/
def FreeNodes (x : String) : List Node → Prop
  | [] => False
  | n :: ns => FreeNode x n ∨ FreeNodes x ns
/-- The same for a region: the symbols of its nodes are not free in them. -/
def FreeRegion (x : String) : Region → Prop
  | .mk _ _ _ cs ms sig => FreeTerms x ms ∨ FreeOption x sig ∨ (x ∉ introducedNames cs ∧ FreeNodes x cs)
/-- The same for regions. -/
def FreeRegions (x : String) : List Region → Prop
  | [] => False
  | r :: rs => FreeRegion x r ∨ FreeRegions x rs
end

/-- The symbol is free in the module. -/
def FreeModule (x : String) : Module → Prop
  | ⟨.mk _ _ _ cs ms _⟩ => x ∉ introducedNames cs ∧ (FreeNodes x cs ∨ FreeTerms x ms)

/-! ## Representation of modules -/

/-- The tables represent the module: its root is a closed region, followed by one import for each free symbol. -/
def RepModule (m : Binary.Module) : Module → Prop
  | ⟨.mk k srcs tgts cs ms sig⟩ => ∃ r names imports ids rest,
      m.regions[m.root.toNat]? = some r ∧ r.kind = .module ∧ r.sources = [] ∧ r.targets = [] ∧ r.signature = none ∧
      ScopeIs names (nodesLinks cs) r.scope ∧ r.children = ids ++ rest ∧ rest.Perm (imports.map Prod.snd) ∧
      (imports.map Prod.fst).Nodup ∧ (∀ x, x ∈ imports.map Prod.fst ↔ FreeModule x ⟨.mk k srcs tgts cs ms sig⟩) ∧
      (∀ p ∈ imports, m.nodes[p.2.toNat]? = some ⟨.import p.1, [], [], [], [], none⟩) ∧
      ((introduced cs ids).map Prod.fst).Nodup ∧
      RepNodes m ⟨[introduced cs ids], none, imports⟩ names cs ids ∧
      RepTerms m ⟨[introduced cs ids], none, imports⟩ ms r.meta

/-! ## Well-scoped modules -/

mutual
/-- Every variable of the term is in scope, and its regions are well scoped. -/
def ScopedTerm (vars : List String) : Term → Prop
  | .wildcard => True
  | .var x => x ∈ vars
  | .apply _ ts => ScopedTerms vars ts
  | .list ps => ScopedParts vars ps
  | .literal _ => True
  | .tuple ps => ScopedParts vars ps
  | .func r => ScopedRegion vars r
/-- The same for terms. -/
def ScopedTerms (vars : List String) : List Term → Prop
  | [] => True
  | t :: ts => ScopedTerm vars t ∧ ScopedTerms vars ts
/-- The same for an optional term. -/
def ScopedOption (vars : List String) : Option Term → Prop
  | none => True
  | some t => ScopedTerm vars t
/-- The same for a part of a sequence. -/
def ScopedPart (vars : List String) : SeqPart → Prop
  | .item t => ScopedTerm vars t
  | .splice t => ScopedTerm vars t
/-- The same for the parts of a sequence. -/
def ScopedParts (vars : List String) : List SeqPart → Prop
  | [] => True
  | p :: ps => ScopedPart vars p ∧ ScopedParts vars ps
/-- The type of a parameter. -/
def ScopedParam (vars : List String) : Param → Prop
  | .mk _ t => ScopedTerm vars t
/-- Parameters have distinct names and use only earlier ones. -/
def ScopedParams : List String → List Param → Prop
  | _, [] => True
  | before, p :: ps => ScopedParam before p ∧ p.name ∉ before ∧ ScopedParams (before ++ [p.name]) ps
/-- A symbol uses only its own parameters. -/
def ScopedSymbol : Symbol → Prop
  | .mk _ _ ps cs t => ScopedParams [] ps ∧ ScopedTerms (ps.map Param.name) cs ∧ ScopedTerm (ps.map Param.name) t
/-- The operation of a node. -/
def ScopedOperation (vars : List String) : Operation → Prop
  | .simple _ => True
  | .defineFunc y => ScopedSymbol y
  | .declare _ y => ScopedSymbol y
  | .defineAlias y t => ScopedSymbol y ∧ ScopedTerm (y.params.map Param.name) t
  | .custom t => ScopedTerm vars t
  | .import _ => True
/-- A node: if it declares a symbol then only its parameters are in scope inside it. -/
def ScopedNode (vars : List String) : Node → Prop
  | .mk o _ _ rs ms sig => ScopedOperation vars o ∧
      ScopedTerms (match o.symbol with | some y => y.params.map Param.name | none => vars) ms ∧
      ScopedOption (match o.symbol with | some y => y.params.map Param.name | none => vars) sig ∧
      ScopedRegions (match o.symbol with | some y => y.params.map Param.name | none => vars) rs
/-- Nodes. -/
def ScopedNodes (vars : List String) : List Node → Prop
  | [] => True
  | n :: ns => ScopedNode vars n ∧ ScopedNodes vars ns
/-- A region: its nodes introduce distinct symbols. -/
def ScopedRegion (vars : List String) : Region → Prop
  | .mk _ _ _ cs ms sig => ScopedTerms vars ms ∧ ScopedOption vars sig ∧ (introducedNames cs).Nodup ∧
      ScopedNodes vars cs
/-- Regions. -/
def ScopedRegions (vars : List String) : List Region → Prop
  | [] => True
  | r :: rs => ScopedRegion vars r ∧ ScopedRegions vars rs
end

/-- The module is well scoped. There are no variables in the scope of the module; its signature is not looked at. -/
def ScopedModule : Module → Prop
  | ⟨.mk _ _ _ cs ms _⟩ => (introducedNames cs).Nodup ∧ ScopedNodes [] cs ∧ ScopedTerms [] ms

/-! ## Nesting -/

mutual
/-- How deep regions are nested in a term. -/
def termDepth : Term → Nat
  | .wildcard => 0
  | .var _ => 0
  | .apply _ ts => termsDepth ts
  | .list ps => partsDepth ps
  | .literal _ => 0
  | .tuple ps => partsDepth ps
  | .func r => regionDepth r
/-- The same for terms. -/
def termsDepth : List Term → Nat
  | [] => 0
  | t :: ts => max (termDepth t) (termsDepth ts)
/-- The same for an optional term. -/
def optionDepth : Option Term → Nat
  | none => 0
  | some t => termDepth t
/-- The same for a part of a sequence. -/
def partDepth : SeqPart → Nat
  | .item t => termDepth t
  | .splice t => termDepth t
/-- The same for the parts of a sequence. -/
def partsDepth : List SeqPart → Nat
  | [] => 0
  | p :: ps => max (partDepth p) (partsDepth ps)
/-- The same for a parameter. -/
def paramDepth : Param → Nat
  | .mk _ t => termDepth t
/-- The same for parameters. -/
def paramsDepth : List Param → Nat
  | [] => 0
  | p :: ps => max (paramDepth p) (paramsDepth ps)
/-- The same for a symbol. -/
def symbolDepth : Symbol → Nat
  | .mk _ _ ps cs t => max (paramsDepth ps) (max (termsDepth cs) (termDepth t))
/-- The same for an operation. -/
def operationDepth : Operation → Nat
  | .simple _ => 0
  | .defineFunc y => symbolDepth y
  | .declare _ y => symbolDepth y
  | .defineAlias y t => max (symbolDepth y) (termDepth t)
  | .custom t => termDepth t
  | .import _ => 0
/-- The same for a node. -/
def nodeDepth : Node → Nat
  | .mk o _ _ rs ms sig => max (operationDepth o) (max (termsDepth ms) (max (regionsDepth rs) (optionDepth sig)))
/-- The same for nodes. -/
def nodesDepth : List Node → Nat
  | [] => 0
  | n :: ns => max (nodeDepth n) (nodesDepth ns)
/-- A region is one deeper than its nodes. -/
def regionDepth : Region → Nat
  | .mk _ _ _ cs ms sig => max (nodesDepth cs + 1) (max (termsDepth ms) (optionDepth sig))
/-- The same for regions. -/
def regionsDepth : List Region → Nat
  | [] => 0
  | r :: rs => max (regionDepth r) (regionsDepth rs)
end

/-- How deep regions are nested in the module, with its root. -/
def moduleDepth : Module → Nat
  | ⟨.mk _ _ _ cs ms _⟩ => max (nodesDepth cs) (termsDepth ms) + 1

/-! ## Numbers of parameters -/

mutual
/-- The largest number of parameters of a symbol in a term. -/
def termArity : Term → Nat
  | .wildcard => 0
  | .var _ => 0
  | .apply _ ts => termsArity ts
  | .list ps => partsArity ps
  | .literal _ => 0
  | .tuple ps => partsArity ps
  | .func r => regionArity r
/-- The same for terms. -/
def termsArity : List Term → Nat
  | [] => 0
  | t :: ts => max (termArity t) (termsArity ts)
/-- The same for an optional term. -/
def optionArity : Option Term → Nat
  | none => 0
  | some t => termArity t
/-- The same for a part of a sequence. -/
def partArity : SeqPart → Nat
  | .item t => termArity t
  | .splice t => termArity t
/-- The same for the parts of a sequence. -/
def partsArity : List SeqPart → Nat
  | [] => 0
  | p :: ps => max (partArity p) (partsArity ps)
/-- The same for a parameter. -/
def paramArity : Param → Nat
  | .mk _ t => termArity t
/-- The same for parameters. -/
def paramsArity : List Param → Nat
  | [] => 0
  | p :: ps => max (paramArity p) (paramsArity ps)
/-- The same for a symbol. -/
def symbolArity : Symbol → Nat
  | .mk _ _ ps cs t => max ps.length (max (paramsArity ps) (max (termsArity cs) (termArity t)))
/-- The same for an operation. -/
def operationArity : Operation → Nat
  | .simple _ => 0
  | .defineFunc y => symbolArity y
  | .declare _ y => symbolArity y
  | .defineAlias y t => max (symbolArity y) (termArity t)
  | .custom t => termArity t
  | .import _ => 0
/-- The same for a node. -/
def nodeArity : Node → Nat
  | .mk o _ _ rs ms sig => max (operationArity o) (max (termsArity ms) (max (regionsArity rs) (optionArity sig)))
/-- The same for nodes. -/
def nodesArity : List Node → Nat
  | [] => 0
  | n :: ns => max (nodeArity n) (nodesArity ns)
/-- The same for a region. -/
def regionArity : Region → Nat
  | .mk _ _ _ cs ms sig => max (nodesArity cs) (max (termsArity ms) (optionArity sig))
/-- The same for regions. -/
def regionsArity : List Region → Nat
  | [] => 0
  | r :: rs => max (regionArity r) (regionsArity rs)
end

/-- The largest number of parameters of a symbol in the module. -/
def moduleArity : Module → Nat
  | ⟨.mk _ _ _ cs ms _⟩ => max (nodesArity cs) (termsArity ms)

/-! ## Sizes -/

mutual
/-- The number of terms, nodes, regions and ports in a term, with a node for every use of a symbol. -/
def termSize : Term → Nat
  | .wildcard => 1
  | .var _ => 1
  | .apply _ ts => 1 + termsSize ts + 1
  | .list ps => partsSize ps + 1
  | .literal _ => 1
  | .tuple ps => partsSize ps + 1
  | .func r => regionSize r + 1
/-- The same for terms. -/
def termsSize : List Term → Nat
  | [] => 0
  | t :: ts => termSize t + termsSize ts
/-- The same for an optional term. -/
def optionSize : Option Term → Nat
  | none => 0
  | some t => termSize t
/-- The same for a part of a sequence. -/
def partSize : SeqPart → Nat
  | .item t => termSize t
  | .splice t => termSize t
/-- The same for the parts of a sequence. -/
def partsSize : List SeqPart → Nat
  | [] => 0
  | p :: ps => partSize p + partsSize ps
/-- The same for a parameter. -/
def paramSize : Param → Nat
  | .mk _ t => termSize t
/-- The same for parameters. -/
def paramsSize : List Param → Nat
  | [] => 0
  | p :: ps => paramSize p + paramsSize ps
/-- The same for a symbol. -/
def symbolSize : Symbol → Nat
  | .mk _ _ ps cs t => paramsSize ps + termsSize cs + termSize t
/-- The same for an operation. -/
def operationSize : Operation → Nat
  | .simple _ => 0
  | .defineFunc y => symbolSize y
  | .declare _ y => symbolSize y
  | .defineAlias y t => symbolSize y + termSize t
  | .custom t => termSize t
  | .import _ => 0
/-- The same for a node, without the node itself. -/
def nodeSize : Node → Nat
  | .mk o ins outs rs ms sig =>
    ins.length + outs.length + operationSize o + termsSize ms + regionsSize rs + optionSize sig
/-- The same for nodes. -/
def nodesSize : List Node → Nat
  | [] => 0
  | n :: ns => nodeSize n + nodesSize ns
/-- The same for a region, with its nodes. -/
def regionSize : Region → Nat
  | .mk _ srcs tgts cs ms sig =>
    termsSize ms + optionSize sig + 1 + srcs.length + tgts.length + cs.length + nodesSize cs
/-- The same for regions. -/
def regionsSize : List Region → Nat
  | [] => 0
  | r :: rs => regionSize r + regionsSize rs
end

/-- The size of the module. -/
def moduleSize : Module → Nat
  | ⟨.mk _ _ _ cs ms _⟩ => 1 + cs.length + nodesSize cs + termsSize ms

/-! ## Sameness -/

mutual
/-- The same term up to the names of links in its regions, with equal literals. -/
def SameTerm : Term → Term → Prop
  | .wildcard, t' => t' = .wildcard
  | .var x, t' => t' = .var x
  | .apply x ts, t' => ∃ ts', t' = .apply x ts' ∧ SameTerms ts ts'
  | .list ps, t' => ∃ ps', t' = .list ps' ∧ SameParts ps ps'
  | .literal l, t' => ∃ l', t' = .literal l' ∧ LiteralEq l l'
  | .tuple ps, t' => ∃ ps', t' = .tuple ps' ∧ SameParts ps ps'
  | .func r, t' => ∃ r', t' = .func r' ∧ SameRegion none r r'
termination_by structural t => t
/-- The same for terms. -/
def SameTerms : List Term → List Term → Prop
  | [], [] => True
  | t :: ts, t' :: ts' => SameTerm t t' ∧ SameTerms ts ts'
  | _, _ => False
termination_by structural t => t
/-- The same for an optional term. -/
def SameOption : Option Term → Option Term → Prop
  | none, none => True
  | some t, some t' => SameTerm t t'
  | _, _ => False
termination_by structural t => t
/-- The same for a part of a sequence. -/
def SamePart : SeqPart → SeqPart → Prop
  | .item t, .item t' => SameTerm t t'
  | .splice t, .splice t' => SameTerm t t'
  | _, _ => False
termination_by structural t => t
/-- The same for the parts of a sequence. -/
def SameParts : List SeqPart → List SeqPart → Prop
  | [], [] => True
  | p :: ps, p' :: ps' => SamePart p p' ∧ SameParts ps ps'
  | _, _ => False
termination_by structural t => t
/-- The same for a parameter. -/
def SameParam : Param → Param → Prop
  | .mk x t, .mk x' t' => x' = x ∧ SameTerm t t'
termination_by structural t => t
/-- The same for parameters. -/
def SameParams : List Param → List Param → Prop
  | [], [] => True
  | p :: ps, p' :: ps' => SameParam p p' ∧ SameParams ps ps'
  | _, _ => False
termination_by structural t => t
/-- The same for a symbol. -/
def SameSymbol : Symbol → Symbol → Prop
  | .mk v x ps cs t, .mk v' x' ps' cs' t' => v' = v ∧ x' = x ∧ SameParams ps ps' ∧ SameTerms cs cs' ∧ SameTerm t t'
termination_by structural t => t
/-- The same for an operation. -/
def SameOperation : Operation → Operation → Prop
  | .simple k, o' => o' = .simple k
  | .defineFunc y, o' => ∃ y', o' = .defineFunc y' ∧ SameSymbol y y'
  | .declare k y, o' => ∃ y', o' = .declare k y' ∧ SameSymbol y y'
  | .defineAlias y t, o' => ∃ y' t', o' = .defineAlias y' t' ∧ SameSymbol y y' ∧ SameTerm t t'
  | .custom t, o' => ∃ t', o' = .custom t' ∧ SameTerm t t'
  | .import x, o' => o' = .import x
termination_by structural t => t
/-- The same node, with its links renamed. The links of functions are renamed on their own. -/
def SameNode (f : String → String) : Node → Node → Prop
  | .mk o ins outs rs ms sig, n' => ∃ o' rs' ms' sig', n' = .mk o' (ins.map f) (outs.map f) rs' ms' sig' ∧
      SameOperation o o' ∧ SameTerms ms ms' ∧ SameOption sig sig' ∧
      SameRegions (match o with | .defineFunc _ => none | _ => some f) rs rs'
termination_by structural t => t
/-- The same nodes. -/
def SameNodes (f : String → String) : List Node → List Node → Prop
  | [], [] => True
  | n :: ns, n' :: ns' => SameNode f n n' ∧ SameNodes f ns ns'
  | _, _ => False
termination_by structural t => t
/-- The same region: its links are renamed as those around it, or else by a renaming of its own that keeps different
links different. -/
def SameRegion (outer : Option (String → String)) : Region → Region → Prop
  | .mk k srcs tgts cs ms sig, r' => ∃ f cs' ms' sig',
      (match outer with
        | some g => f = g
        | none => ∀ x ∈ srcs ++ tgts ++ nodesLinks cs, ∀ y ∈ srcs ++ tgts ++ nodesLinks cs, f x = f y → x = y) ∧
      r' = .mk k (srcs.map f) (tgts.map f) cs' ms' sig' ∧ SameNodes f cs cs' ∧ SameTerms ms ms' ∧ SameOption sig sig'
termination_by structural t => t
/-- The same regions. -/
def SameRegions (outer : Option (String → String)) : List Region → List Region → Prop
  | [], [] => True
  | r :: rs, r' :: rs' => SameRegion outer r r' ∧ SameRegions outer rs rs'
  | _, _ => False
termination_by structural t => t
end

/-- The same module, with an import for every symbol in the list after the other nodes. -/
def SameModule (imports : List String) : Module → Module → Prop
  | ⟨.mk _ _ _ cs ms _⟩, m' => ∃ f cs' ms',
      (∀ x ∈ nodesLinks cs, ∀ y ∈ nodesLinks cs, f x = f y → x = y) ∧
      m' = ⟨.mk .module [] [] (cs' ++ imports.map fun x => .mk (.import x) [] [] [] [] none) ms' none⟩ ∧
      SameNodes f cs cs' ∧ SameTerms ms ms'

end Verif.Resolve
