/-!
# Modules as tables

Models hugr-model/src/v0/table/mod.rs: the data that the binary format stores, and that names of the text format are
resolved to. Ids are `u32`s; slices of the arena are lists.
-/
namespace Verif.Binary

/-- `NodeId`, table/mod.rs:449-453. -/
abbrev NodeId := UInt32
/-- `LinkIndex`, table/mod.rs:455-459. -/
abbrev LinkIndex := UInt32
/-- `RegionId`, table/mod.rs:461-465. -/
abbrev RegionId := UInt32
/-- `TermId`, table/mod.rs:467-471. -/
abbrev TermId := UInt32

/-- `RegionKind`, hugr-model/src/v0/mod.rs:405-413. -/
inductive RegionKind where
  | dataFlow
  | controlFlow
  | module
  deriving DecidableEq

/-- `Visibility`, hugr-model/src/v0/mod.rs:114-119. -/
inductive Visibility where
  | «private»
  | «public»
  deriving DecidableEq

/-- `Literal`, hugr-model/src/v0/mod.rs:558-567; a float by its bits. -/
inductive Literal where
  | str (s : String)
  | nat (n : UInt64)
  | bytes (bs : List UInt8)
  | float (bits : UInt64)
  deriving DecidableEq

/-- `Param`, table/mod.rs:392-397. -/
structure Param where
  name : String
  type : TermId
  deriving DecidableEq

/-- `Symbol`, table/mod.rs:305-316. -/
structure Symbol where
  visibility : Option Visibility
  name : String
  params : List Param
  constraints : List TermId
  signature : TermId
  deriving DecidableEq

/-- `Operation`, table/mod.rs:190-247. -/
inductive Operation where
  | invalid
  | dfg
  | cfg
  | block
  | defineFunc (symbol : Symbol)
  | declareFunc (symbol : Symbol)
  | custom (term : TermId)
  | defineAlias (symbol : Symbol) (value : TermId)
  | declareAlias (symbol : Symbol)
  | tailLoop
  | conditional
  | declareConstructor (symbol : Symbol)
  | declareOperation (symbol : Symbol)
  | «import» (name : String)
  deriving DecidableEq

/-- `Node`, table/mod.rs:166-181. -/
structure Node where
  operation : Operation
  inputs : List LinkIndex
  outputs : List LinkIndex
  regions : List RegionId
  «meta» : List TermId
  signature : Option TermId
  deriving DecidableEq

/-- `RegionScope`, table/mod.rs:292-297. -/
structure RegionScope where
  links : UInt32
  ports : UInt32
  deriving DecidableEq

/-- `Region`, table/mod.rs:273-288. -/
structure Region where
  kind : RegionKind
  sources : List LinkIndex
  targets : List LinkIndex
  children : List NodeId
  «meta» : List TermId
  signature : Option TermId
  scope : Option RegionScope
  deriving DecidableEq

/-- `SeqPart`, table/mod.rs:377-382. -/
inductive SeqPart where
  | item (t : TermId)
  | splice (t : TermId)
  deriving DecidableEq

/-- `Term`, table/mod.rs:327-362. -/
inductive Term where
  | wildcard
  | var (node : NodeId) (index : UInt16)
  | apply (symbol : NodeId) (args : List TermId)
  | list (parts : List SeqPart)
  | literal (l : Literal)
  | func (region : RegionId)
  | tuple (parts : List SeqPart)
  deriving DecidableEq

/-- `Module`, table/mod.rs:67-76. -/
structure Module where
  root : RegionId
  nodes : List Node
  regions : List Region
  terms : List Term
  deriving DecidableEq

/-- `Package`, table/mod.rs:41-44. -/
structure Package where
  modules : List Module
  deriving DecidableEq

end Verif.Binary
