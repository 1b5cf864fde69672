import Verif.Binary.Table
/-!
# Modules with names

Models the data types of hugr-model/src/v0/ast/mod.rs. Names are strings, slices are lists. Operations that carry the
same data are grouped: the kinds of `Simple` and `Declaration` are the constructors of the Rust enum.
-/
namespace Verif.Resolve
open Verif.Binary (RegionKind Visibility Literal)

/-- The operations without data, ast/mod.rs:136-163. -/
inductive Simple where
  | invalid
  | dfg
  | cfg
  | block
  | tailLoop
  | conditional
  deriving DecidableEq

/-- The operations that only declare a symbol, ast/mod.rs:136-163. -/
inductive Declaration where
  | func
  | alias
  | constructor
  | operation
  deriving DecidableEq

mutual
/-- `Term`, ast/mod.rs:253-269. -/
inductive Term where
  | wildcard
  | var (name : String)
  | apply (symbol : String) (args : List Term)
  | list (parts : List SeqPart)
  | literal (l : Literal)
  | tuple (parts : List SeqPart)
  | func (region : Region)
/-- `SeqPart`, ast/mod.rs:282-287. -/
inductive SeqPart where
  | item (t : Term)
  | splice (t : Term)
/-- `Param`, ast/mod.rs:211-216. -/
inductive Param where
  | mk (name : String) (type : Term)
/-- `Symbol`, ast/mod.rs:194-205. -/
inductive Symbol where
  | mk (visibility : Option Visibility) (name : String) (params : List Param) (constraints : List Term)
    (signature : Term)
/-- `Operation`, ast/mod.rs:132-163. -/
inductive Operation where
  | simple (k : Simple)
  | defineFunc (s : Symbol)
  | declare (k : Declaration) (s : Symbol)
  | defineAlias (s : Symbol) (value : Term)
  | custom (t : Term)
  | «import» (name : String)
/-- `Node`, ast/mod.rs:106-124. -/
inductive Node where
  | mk (operation : Operation) (inputs outputs : List String) (regions : List Region) («meta» : List Term)
    (signature : Option Term)
/-- `Region`, ast/mod.rs:224-238. -/
inductive Region where
  | mk (kind : RegionKind) (sources targets : List String) (children : List Node) («meta» : List Term)
    (signature : Option Term)
end

/-- `Module`, ast/mod.rs:73-78. -/
structure Module where
  root : Region

/-- The name of a parameter. -/
def Param.name : Param → String
  | .mk x _ => x

/-- The name of a symbol. -/
def Symbol.name : Symbol → String
  | .mk _ x _ _ _ => x

/-- The parameters of a symbol. -/
def Symbol.params : Symbol → List Param
  | .mk _ _ ps _ _ => ps

/-- `Operation::symbol`, ast/mod.rs:177-187. -/
def Operation.symbol : Operation → Option Symbol
  | .defineFunc s => some s
  | .declare _ s => some s
  | .defineAlias s _ => some s
  | _ => none

/-- `Operation::symbol_name`, ast/mod.rs:167-173. -/
def Operation.symbolName : Operation → Option String
  | .import x => some x
  | o => o.symbol.map Symbol.name

/-- The operation of a node. -/
def Node.operation : Node → Operation
  | .mk o _ _ _ _ _ => o

/-- The nodes of a region. -/
def Region.children : Region → List Node
  | .mk _ _ _ cs _ _ => cs

end Verif.Resolve
