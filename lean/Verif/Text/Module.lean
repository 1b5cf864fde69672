import Verif.Text.Ast

/-!
# Model of the text format: symbols, nodes, regions, modules and packages

Sources: `/repo/hugr-model/src/v0/ast/{hugr.pest,mod.rs,parse.rs,print.rs}`. `Operation::Invalid`, the
placeholder, is not modelled. Terms are those of `Verif.Text.Ast`, so without functions.
-/
namespace Verif.Text

/-! ## The abstract syntax -/

/-- `Visibility`. -/
inductive Visibility where
  | pub
  | priv
deriving DecidableEq

/-- `Param`, ast/mod.rs:215-220. -/
structure Param where
  name : List Char
  type : Term
deriving DecidableEq

/-- `Symbol`, ast/mod.rs:196-207. -/
structure Symbol where
  visibility : Option Visibility
  name : List Char
  params : List Param
  constraints : List Term
  signature : Term
deriving DecidableEq

/-- `RegionKind`. -/
inductive RegionKind where
  | dataFlow
  | controlFlow
  | module
deriving DecidableEq

/-- `Operation`, ast/mod.rs:132-165. -/
inductive Operation where
  | dfg
  | cfg
  | block
  | defineFunc (s : Symbol)
  | declareFunc (s : Symbol)
  | custom (t : Term)
  | defineAlias (s : Symbol) (t : Term)
  | declareAlias (s : Symbol)
  | tailLoop
  | conditional
  | declareConstructor (s : Symbol)
  | declareOperation (s : Symbol)
  | import (name : List Char)
deriving DecidableEq

mutual
/-- `Node`, ast/mod.rs:106-124. -/
inductive Node where
  | mk (operation : Operation) (inputs outputs : List (List Char)) (signature : Option Term)
    (metas : List Term) (regions : List Region)

/-- `Region`, ast/mod.rs:228-242. -/
inductive Region where
  | mk (kind : RegionKind) (sources targets : List (List Char)) (signature : Option Term)
    (metas : List Term) (children : List Node)
end

mutual
/-- Equality of nodes is decidable; used for concrete cases only. -/
def decNode : (a b : Node) → Decidable (a = b)
  | .mk o i u s m r, .mk o' i' u' s' m' r' =>
    match decRegions r r' with
    | isTrue h =>
      if h' : (o, i, u, s, m) = (o', i', u', s', m') then
        isTrue (by subst h; cases h'; rfl)
      else isFalse (by intro e; cases e; exact h' rfl)
    | isFalse h => isFalse (by intro e; cases e; exact h rfl)

def decRegion : (a b : Region) → Decidable (a = b)
  | .mk k i u s m c, .mk k' i' u' s' m' c' =>
    match decNodes c c' with
    | isTrue h =>
      if h' : (k, i, u, s, m) = (k', i', u', s', m') then
        isTrue (by subst h; cases h'; rfl)
      else isFalse (by intro e; cases e; exact h' rfl)
    | isFalse h => isFalse (by intro e; cases e; exact h rfl)

def decRegions : (a b : List Region) → Decidable (a = b)
  | [], [] => isTrue rfl
  | [], _ :: _ => isFalse nofun
  | _ :: _, [] => isFalse nofun
  | x :: xs, y :: ys =>
    match decRegion x y, decRegions xs ys with
    | isTrue h, isTrue h' => isTrue (by rw [h, h'])
    | isFalse h, _ => isFalse (by intro e; cases e; exact h rfl)
    | _, isFalse h => isFalse (by intro e; cases e; exact h rfl)

def decNodes : (a b : List Node) → Decidable (a = b)
  | [], [] => isTrue rfl
  | [], _ :: _ => isFalse nofun
  | _ :: _, [] => isFalse nofun
  | x :: xs, y :: ys =>
    match decNode x y, decNodes xs ys with
    | isTrue h, isTrue h' => isTrue (by rw [h, h'])
    | isFalse h, _ => isFalse (by intro e; cases e; exact h rfl)
    | _, isFalse h => isFalse (by intro e; cases e; exact h rfl)
end

instance : DecidableEq Node := decNode
instance : DecidableEq Region := decRegion

/-- `Module`, ast/mod.rs:73-78: its root is a region of kind `Module`, of which only the metadata and
the nodes are printed; a module whose root has ports or a signature is not modelled. -/
structure Module where
  metas : List Term
  children : List Node
deriving DecidableEq

/-- `Package`, ast/mod.rs:46-49. -/
structure Package where
  modules : List Module
deriving DecidableEq

/-! ## Parse trees -/

/-- The pairs of `param`. -/
structure ParamTree where
  name : List Char
  type : Tree

/-- The pairs of `symbol`. -/
structure SymbolTree where
  visibility : Option Visibility
  name : List Char
  params : List ParamTree
  constraints : List Tree
  signature : Tree

/-- The rule of a node with its first pairs. -/
inductive OpTree where
  | dfg
  | cfg
  | block
  | defineFunc (s : SymbolTree)
  | declareFunc (s : SymbolTree)
  | custom (t : Tree)
  | defineAlias (s : SymbolTree) (t : Tree)
  | declareAlias (s : SymbolTree)
  | tailLoop
  | conditional
  | declareConstructor (s : SymbolTree)
  | declareOperation (s : SymbolTree)
  | import (name : List Char)

mutual
/-- The pairs of `node`. -/
inductive NodeTree where
  | mk (op : OpTree) (ports : Option (List (List Char) × List (List Char))) (signature : Option Tree)
    (metas : List Tree) (regions : List RegionTree)

/-- The pairs of `region`. -/
inductive RegionTree where
  | mk (kind : RegionKind) (ports : Option (List (List Char) × List (List Char)))
    (signature : Option Tree) (metas : List Tree) (children : List NodeTree)
end

/-- The pairs of `module`. -/
structure ModuleTree where
  metas : List Tree
  children : List NodeTree

/-! ## The grammar -/

/-- A parser. -/
abbrev Parser (α : Type) := List Char → Option (α × List Char)

/-- The further rounds of a repetition; each consumes a character. -/
def more {α : Type} (p : Parser α) : Nat → List Char → List α × List Char
  | 0, s => ([], s)
  | f + 1, s =>
    match p (skip s) with
    | none => ([], s)
    | some (x, r) => (x :: (more p f r).1, (more p f r).2)

/-- A repetition `p*`. -/
def many {α : Type} (p : Parser α) (s : List Char) : List α × List Char :=
  match p s with
  | none => ([], s)
  | some (x, r) => (x :: (more p r.length r).1, (more p r.length r).2)

/-- `p?`. -/
def optional {α : Type} (p : Parser α) (s : List Char) : Option α × List Char :=
  match p s with
  | none => (none, s)
  | some (x, r) => (some x, r)

/-- `link_name`, hugr.pest:7, without the percent sign. -/
def linkName : Parser (List Char)
  | '%' :: s => some (s.takeWhile isRest, s.dropWhile isRest)
  | _ => none

/-- `port_list`, hugr.pest:51. -/
def portList (s : List Char) : Option (List (List Char) × List Char) :=
  match lit "[".toList s with
  | none => none
  | some r1 =>
    match many linkName (skip r1) with
    | (xs, r2) =>
      match lit "]".toList (skip r2) with
      | none => none
      | some r3 => some (xs, r3)

/-- `port_lists`, hugr.pest:52. -/
def portLists (s : List Char) : Option ((List (List Char) × List (List Char)) × List Char) :=
  match portList s with
  | none => none
  | some (xs, r) =>
    match portList (skip r) with
    | none => none
    | some (ys, r') => some ((xs, ys), r')

/-- `"(" ~ keyword ~ term ~ ")"`: `meta`, hugr.pest:49, `signature`, hugr.pest:88, and
`where_clause`, hugr.pest:90. -/
def wrapped (keyword : List Char) : Parser Tree := fun s =>
  match lit "(".toList s with
  | none => none
  | some r1 =>
    match lit keyword (skip r1) with
    | none => none
    | some r2 =>
      match parseTermTree (skip r2) with
      | none => none
      | some (t, r3) =>
        match lit ")".toList (skip r3) with
        | none => none
        | some r4 => some (t, r4)

/-- The name in `term_var`, with what follows. -/
def varName : Parser (List Char)
  | '?' :: s =>
    match identifier (skip s) with
    | none => none
    | some (_, r) => some (consumed s r, r)
  | _ => none

/-- `param`, hugr.pest:89. -/
def param : Parser ParamTree := fun s =>
  match lit "(".toList s with
  | none => none
  | some r1 =>
    match lit "param".toList (skip r1) with
    | none => none
    | some r2 =>
      match varName (skip r2) with
      | none => none
      | some (x, r3) =>
        match parseTermTree (skip r3) with
        | none => none
        | some (t, r4) =>
          match lit ")".toList (skip r4) with
          | none => none
          | some r5 => some (⟨x, t⟩, r5)

/-- `visibility`, hugr.pest:84. -/
def visibility (s : List Char) : Option (Visibility × List Char) :=
  match lit "public".toList s with
  | some r => some (.pub, r)
  | none =>
    match lit "private".toList s with
    | some r => some (.priv, r)
    | none => none

/-- `symbol`, hugr.pest:86. -/
def symbol : Parser SymbolTree := fun s =>
  match optional visibility s with
  | (v, r1) =>
    match symbolName (skip r1) with
    | none => none
    | some (x, r2) =>
      match many param (skip r2) with
      | (ps, r3) =>
        match many (wrapped "where".toList) (skip r3) with
        | (cs, r4) =>
          match parseTermTree (skip r4) with
          | none => none
          | some (t, r5) => some (⟨v, x, ps, cs, t⟩, r5)

/-- What follows the operation in the nodes with ports, hugr.pest:70-72, 79-80, 82:
`port_lists? ~ signature? ~ meta* ~ item* ~ ")"`. Also the end of `region`, hugr.pest:92. -/
def tail {α : Type} (item : Parser α) (s : List Char) :
    Option ((Option (List (List Char) × List (List Char)) × Option Tree × List Tree × List α) ×
      List Char) :=
  match optional portLists s with
  | (ports, r1) =>
    match optional (wrapped "signature".toList) (skip r1) with
    | (sig, r2) =>
      match many (wrapped "meta".toList) (skip r2) with
      | (metas, r3) =>
        match many item (skip r3) with
        | (items, r4) =>
          match lit ")".toList (skip r4) with
          | none => none
          | some r5 => some ((ports, sig, metas, items), r5)

/-- `region_kind`, hugr.pest:93. -/
def regionKind (s : List Char) : Option (RegionKind × List Char) :=
  match lit "dfg".toList s with
  | some r => some (.dataFlow, r)
  | none =>
    match lit "cfg".toList s with
    | some r => some (.controlFlow, r)
    | none =>
      match lit "mod".toList s with
      | some r => some (.module, r)
      | none => none

/-- The nodes that start with a keyword and go on with ports, hugr.pest:70-72, 79-80. -/
def nodeKeyword (region : Parser RegionTree) (keyword : List Char) (op : OpTree) : Parser NodeTree :=
  fun s =>
    match lit "(".toList s with
    | none => none
    | some r1 =>
      match lit keyword (skip r1) with
      | none => none
      | some r2 =>
        match tail region (skip r2) with
        | none => none
        | some ((ports, sig, metas, regions), r3) => some (.mk op ports sig metas regions, r3)

/-- The start of nodes that introduce symbols: `"(" ~ keyword ~ symbol`. -/
def nodeSymbol (keyword : List Char) : Parser SymbolTree := fun s =>
  match lit "(".toList s with
  | none => none
  | some r1 =>
    match lit keyword (skip r1) with
    | none => none
    | some r2 => symbol (skip r2)

/-- `meta* ~ ")"`. -/
def metasEnd (s : List Char) : Option (List Tree × List Char) :=
  match many (wrapped "meta".toList) s with
  | (metas, r1) =>
    match lit ")".toList (skip r1) with
    | none => none
    | some r2 => some (metas, r2)

/-- `node_define_func`, hugr.pest:73. -/
def nodeDefineFunc (region : Parser RegionTree) : Parser NodeTree := fun s =>
  match nodeSymbol "define-func".toList s with
  | none => none
  | some (sym, r1) =>
    match many (wrapped "meta".toList) (skip r1) with
    | (metas, r2) =>
      match many region (skip r2) with
      | (regions, r3) =>
        match lit ")".toList (skip r3) with
        | none => none
        | some r4 => some (.mk (.defineFunc sym) none none metas regions, r4)

/-- The declarations, hugr.pest:74, 76-78. -/
def nodeDeclare (keyword : List Char) (op : SymbolTree → OpTree) : Parser NodeTree := fun s =>
  match nodeSymbol keyword s with
  | none => none
  | some (sym, r1) =>
    match metasEnd (skip r1) with
    | none => none
    | some (metas, r2) => some (.mk (op sym) none none metas [], r2)

/-- `node_define_alias`, hugr.pest:75. -/
def nodeDefineAlias : Parser NodeTree := fun s =>
  match nodeSymbol "define-alias".toList s with
  | none => none
  | some (sym, r1) =>
    match parseTermTree (skip r1) with
    | none => none
    | some (t, r2) =>
      match metasEnd (skip r2) with
      | none => none
      | some (metas, r3) => some (.mk (.defineAlias sym t) none none metas [], r3)

/-- `node_import`, hugr.pest:81. -/
def nodeImport : Parser NodeTree := fun s =>
  match lit "(".toList s with
  | none => none
  | some r1 =>
    match lit "import".toList (skip r1) with
    | none => none
    | some r2 =>
      match symbolName (skip r2) with
      | none => none
      | some (x, r3) =>
        match metasEnd (skip r3) with
        | none => none
        | some (metas, r4) => some (.mk (.import x) none none metas [], r4)

/-- `node_custom`, hugr.pest:82. -/
def nodeCustom (region : Parser RegionTree) : Parser NodeTree := fun s =>
  match lit "(".toList s with
  | none => none
  | some r1 =>
    match parseTermTree (skip r1) with
    | none => none
    | some (t, r2) =>
      match tail region (skip r2) with
      | none => none
      | some ((ports, sig, metas, regions), r3) => some (.mk (.custom t) ports sig metas regions, r3)

mutual
/-- `node`, hugr.pest:54-68. One level of `fuel` pays for one rule; every nested rule is tried on a
shorter input. -/
def node : Nat → List Char → Option (NodeTree × List Char)
  | 0, _ => none
  | f + 1, s =>
    alt (nodeKeyword (region f) "dfg".toList .dfg s) <|
    alt (nodeKeyword (region f) "cfg".toList .cfg s) <|
    alt (nodeKeyword (region f) "block".toList .block s) <|
    alt (nodeDefineFunc (region f) s) <|
    alt (nodeDeclare "declare-func".toList .declareFunc s) <|
    alt (nodeDefineAlias s) <|
    alt (nodeDeclare "declare-alias".toList .declareAlias s) <|
    alt (nodeDeclare "declare-ctr".toList .declareConstructor s) <|
    alt (nodeDeclare "declare-operation".toList .declareOperation s) <|
    alt (nodeKeyword (region f) "tail-loop".toList .tailLoop s) <|
    alt (nodeKeyword (region f) "cond".toList .conditional s) <|
    alt (nodeImport s) <|
    nodeCustom (region f) s

/-- `region`, hugr.pest:92. -/
def region : Nat → List Char → Option (RegionTree × List Char)
  | 0, _ => none
  | f + 1, s =>
    match lit "(".toList s with
    | none => none
    | some r1 =>
      match regionKind (skip r1) with
      | none => none
      | some (kind, r2) =>
        match tail (node f) (skip r2) with
        | none => none
        | some ((ports, sig, metas, children), r3) => some (.mk kind ports sig metas children, r3)
end

/-- A node, with enough fuel. -/
def parseNodeTree (s : List Char) : Option (NodeTree × List Char) := node s.length s

/-- `module`, hugr.pest:47. -/
def moduleRule : Parser ModuleTree := fun s =>
  match lit "(".toList s with
  | none => none
  | some r1 =>
    match lit "mod".toList (skip r1) with
    | none => none
    | some r2 =>
      match lit ")".toList (skip r2) with
      | none => none
      | some r3 =>
        match many (wrapped "meta".toList) (skip r3) with
        | (metas, r4) =>
          match many parseNodeTree (skip r4) with
          | (nodes, r5) => some (⟨metas, nodes⟩, r5)

/-- `package`, hugr.pest:46: the whole input must be used. -/
def packageRule (s : List Char) : Option (List ModuleTree) :=
  match lit "(".toList s with
  | none => none
  | some r1 =>
    match lit "hugr".toList (skip r1) with
    | none => none
    | some r2 =>
      match lit "0".toList (skip r2) with
      | none => none
      | some r3 =>
        match lit ")".toList (skip r3) with
        | none => none
        | some r4 =>
          match many moduleRule (skip r4) with
          | (ms, r5) =>
            match skip r5 with
            | [] => some ms
            | _ => none

/-! ## From parse trees to the abstract syntax -/

/-- `iterator.map(f).collect::<Result<_, _>>()`. -/
def buildAll {α β : Type} (f : α → Res β) : List α → Res (List β)
  | [] => .ok []
  | x :: xs => (f x).bind fun y => (buildAll f xs).bind fun ys => .ok (y :: ys)

/-- `parse_param`, parse.rs:285-291. -/
def buildParam (p : ParamTree) : Res Param := (buildTerm p.type).bind fun t => .ok ⟨p.name, t⟩

/-- `parse_symbol`, parse.rs:293-317. -/
def buildSymbol (s : SymbolTree) : Res Symbol :=
  (buildAll buildParam s.params).bind fun ps =>
  (buildAll buildTerm s.constraints).bind fun cs =>
  (buildTerm s.signature).bind fun t => .ok ⟨s.visibility, s.name, ps, cs, t⟩

/-- The operation in `parse_node`, parse.rs:194-237. -/
def buildOp : OpTree → Res Operation
  | .dfg => .ok .dfg
  | .cfg => .ok .cfg
  | .block => .ok .block
  | .defineFunc s => (buildSymbol s).bind fun x => .ok (.defineFunc x)
  | .declareFunc s => (buildSymbol s).bind fun x => .ok (.declareFunc x)
  | .custom t => (buildTerm t).bind fun x => .ok (.custom x)
  | .defineAlias s t => (buildSymbol s).bind fun x => (buildTerm t).bind fun y => .ok (.defineAlias x y)
  | .declareAlias s => (buildSymbol s).bind fun x => .ok (.declareAlias x)
  | .tailLoop => .ok .tailLoop
  | .conditional => .ok .conditional
  | .declareConstructor s => (buildSymbol s).bind fun x => .ok (.declareConstructor x)
  | .declareOperation s => (buildSymbol s).bind fun x => .ok (.declareOperation x)
  | .import x => .ok (.import x)

/-- `parse_optional_signature`, parse.rs:268-279. -/
def buildOption : Option Tree → Res (Option Term)
  | none => .ok none
  | some t => (buildTerm t).bind fun x => .ok (some x)

/-- Two calls of `parse_port_list`, parse.rs:331-338: without lists there are no ports. -/
def portsOf : Option (List (List Char) × List (List Char)) → List (List Char) × List (List Char)
  | none => ([], [])
  | some p => p

mutual
/-- `parse_node`, parse.rs:187-256. -/
def buildNode : NodeTree → Res Node
  | .mk op ports sig metas regions =>
    (buildOp op).bind fun o => (buildOption sig).bind fun s => (buildAll buildTerm metas).bind fun ms =>
    (buildRegions regions).bind fun rs => .ok (.mk o (portsOf ports).1 (portsOf ports).2 s ms rs)

/-- `parse_region`, parse.rs:151-181. -/
def buildRegion : RegionTree → Res Region
  | .mk kind ports sig metas children =>
    (buildOption sig).bind fun s => (buildAll buildTerm metas).bind fun ms =>
    (buildNodes children).bind fun cs => .ok (.mk kind (portsOf ports).1 (portsOf ports).2 s ms cs)

def buildRegions : List RegionTree → Res (List Region)
  | [] => .ok []
  | x :: xs => (buildRegion x).bind fun y => (buildRegions xs).bind fun ys => .ok (y :: ys)

def buildNodes : List NodeTree → Res (List Node)
  | [] => .ok []
  | x :: xs => (buildNode x).bind fun y => (buildNodes xs).bind fun ys => .ok (y :: ys)
end

/-- `parse_module`, parse.rs:135-149. -/
def buildModule (m : ModuleTree) : Res Module :=
  (buildAll buildTerm m.metas).bind fun ms => (buildNodes m.children).bind fun ns => .ok ⟨ms, ns⟩

/-- `Package::from_str`, parse.rs:124-133, 441-456. -/
def parsePackage (s : List Char) : Res Package :=
  match packageRule s with
  | none => .error
  | some ms => (buildAll buildModule ms).bind fun xs => .ok ⟨xs⟩

/-- `Module::from_str`; what is left of the input is returned here. -/
def parseModule (s : List Char) : Res (Module × List Char) :=
  match moduleRule s with
  | none => .error
  | some (t, r) => (buildModule t).bind fun m => .ok (m, r)

/-- `Node::from_str`; what is left of the input is returned here. -/
def parseNode (s : List Char) : Res (Node × List Char) :=
  match parseNodeTree s with
  | none => .error
  | some (t, r) => (buildNode t).bind fun n => .ok (n, r)

/-- `Region::from_str`; what is left of the input is returned here. -/
def parseRegion (s : List Char) : Res (Region × List Char) :=
  match region s.length s with
  | none => .error
  | some (t, r) => (buildRegion t).bind fun n => .ok (n, r)

/-- `Param::from_str`; what is left of the input is returned here. -/
def parseParam (s : List Char) : Res (Param × List Char) :=
  match param s with
  | none => .error
  | some (t, r) => (buildParam t).bind fun n => .ok (n, r)

/-- `Symbol::from_str`; what is left of the input is returned here. -/
def parseSymbol (s : List Char) : Res (Symbol × List Char) :=
  match symbol s with
  | none => .error
  | some (t, r) => (buildSymbol t).bind fun n => .ok (n, r)

/-! ## Printing -/

/-- `print_port_lists`, print.rs:227-253. -/
def printPorts (ins outs : List (List Char)) : List Doc :=
  if ins = [] ∧ outs = [] then []
  else [.group [] [] [.group ['['] [']'] (ins.map fun x => .text ('%' :: x)),
    .group ['['] [']'] (outs.map fun x => .text ('%' :: x))]]

/-- `print_meta_item`, `print_signature` and `print_constraint`, print.rs:399-418. -/
def printWrapped (keyword : List Char) (t : Term) : Doc :=
  .group ['('] [')'] [.text keyword, printTerm t]

/-- `print_param`, print.rs:391-397. -/
def printParam (p : Param) : Doc :=
  .group ['('] [')'] [.text "param".toList, .text ('?' :: p.name), printTerm p.type]

/-- `print_symbol`, print.rs:371-389. -/
def printSymbol (s : Symbol) : List Doc :=
  (match s.visibility with
    | none => []
    | some .pub => [.text "public".toList]
    | some .priv => [.text "private".toList]) ++
  .text s.name :: (s.params.map printParam ++
    (s.constraints.map (printWrapped "where".toList) ++ [printTerm s.signature]))

/-- The operation in `print_node`, print.rs:284-322. -/
def printOp : Operation → List Doc
  | .dfg => [.text "dfg".toList]
  | .cfg => [.text "cfg".toList]
  | .block => [.text "block".toList]
  | .defineFunc s => .text "define-func".toList :: printSymbol s
  | .declareFunc s => .text "declare-func".toList :: printSymbol s
  | .custom t => [printTerm t]
  | .defineAlias s t => .text "define-alias".toList :: (printSymbol s ++ [printTerm t])
  | .declareAlias s => .text "declare-alias".toList :: printSymbol s
  | .tailLoop => [.text "tail-loop".toList]
  | .conditional => [.text "cond".toList]
  | .declareConstructor s => .text "declare-ctr".toList :: printSymbol s
  | .declareOperation s => .text "declare-operation".toList :: printSymbol s
  | .import x => [.text "import".toList, .text x]

/-- The word for a kind of region, print.rs:347-351. -/
def kindText : RegionKind → List Char
  | .dataFlow => "dfg".toList
  | .controlFlow => "cfg".toList
  | .module => "mod".toList

/-- An optional signature. -/
def printOption : Option Term → List Doc
  | none => []
  | some t => [printWrapped "signature".toList t]

mutual
/-- `print_node`, print.rs:280-341. -/
def printNode : Node → Doc
  | .mk op ins outs sig metas regions =>
    .group ['('] [')'] (.group [] [] (printOp op ++ printPorts ins outs) ::
      (printOption sig ++ (metas.map (printWrapped "meta".toList) ++ printRegions regions)))

/-- `print_region`, print.rs:343-369. -/
def printRegion : Region → Doc
  | .mk kind ins outs sig metas children =>
    .group ['('] [')'] (.group [] [] (.text (kindText kind) :: printPorts ins outs) ::
      (printOption sig ++ (metas.map (printWrapped "meta".toList) ++ printNodes children)))

def printRegions : List Region → List Doc
  | [] => []
  | r :: rs => printRegion r :: printRegions rs

def printNodes : List Node → List Doc
  | [] => []
  | n :: ns => printNode n :: printNodes ns
end

/-- `print_module`, print.rs:270-278, without the header that `print_package` puts before it. -/
def printModule (m : Module) : List Doc :=
  m.metas.map (printWrapped "meta".toList) ++ printNodes m.children

/-- `print_package`, print.rs:255-268; the documents are separated by empty lines, print.rs:31-36. -/
def printPackage (p : Package) : List Doc :=
  .group ['('] [')'] [.text "hugr".toList, .text "0".toList] :: 
    p.modules.flatMap fun m => .group ['('] [')'] [.text "mod".toList] :: printModule m

end Verif.Text
