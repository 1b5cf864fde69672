import Verif.Text.Module
import Verif.Text.Spec

/-!
# Specification: well-formed packages, flattening
-/
namespace Verif.Text

/-! ## Well-formedness

The conditions besides the shape of names exclude what the grammar reads as something else; see the
findings in `Verif.Text.ModuleProps`. -/

/-- A link name: letters, digits, `_` and `-`. -/
def LinkText (x : List Char) : Prop := ∀ c ∈ x, isRest c = true

def Param.Ok (p : Param) : Prop := IdentText p.name ∧ p.type.Ok

/-- A name the grammar starts to read as a visibility. -/
def VisibilityLike (x : List Char) : Prop :=
  ∃ y, x = "public".toList ++ y ∨ x = "private".toList ++ y

/-- `(param ?x t)`. -/
def ParamLike (t : Term) : Prop :=
  ∃ x u, t = .apply "param".toList (.cons (.var x) (.cons u .nil))

/-- `(where t)`. -/
def WhereLike (t : Term) : Prop := ∃ u, t = .apply "where".toList (.cons u .nil)

/-- Symbols as the format can express them. -/
structure Symbol.Ok (s : Symbol) : Prop where
  name : SymbolText s.name
  visibility : s.visibility = none → ¬ VisibilityLike s.name
  params : ∀ p ∈ s.params, p.Ok
  constraints : ∀ t ∈ s.constraints, t.Ok
  signature : s.signature.Ok
  notParam : ¬ ParamLike s.signature
  notWhere : ¬ WhereLike s.signature

def Operation.Ok : Operation → Prop
  | .dfg | .cfg | .block | .tailLoop | .conditional => True
  | .defineFunc s | .declareFunc s | .declareAlias s | .declareConstructor s | .declareOperation s =>
    s.Ok
  | .custom t => t.Ok
  | .defineAlias s t => s.Ok ∧ t.Ok
  | .import x => SymbolText x

/-- Operations with ports and signatures: those that do not introduce symbols. -/
def Operation.HasPorts : Operation → Prop
  | .dfg | .cfg | .block | .tailLoop | .conditional | .custom _ => True
  | _ => False

/-- Operations with regions: those with ports, and functions. -/
def Operation.HasRegions : Operation → Prop
  | .dfg | .cfg | .block | .tailLoop | .conditional | .custom _ | .defineFunc _ => True
  | _ => False

/-- `import` before a name. -/
def ImportLike (x : List Char) : Prop := ∃ y, DottedText y ∧ x = "import".toList ++ y

/-- `signature` or `meta` before a name or digits. -/
def ClauseLike (x : List Char) : Prop :=
  ∃ c y, (x = "signature".toList ++ c :: y ∨ x = "meta".toList ++ c :: y) ∧ isRest c = true

mutual
/-- Nodes as the format can express them. -/
def Node.Ok : Node → Prop
  | .mk op ins outs sig metas regions =>
    op.Ok ∧ (∀ x ∈ ins, LinkText x) ∧ (∀ x ∈ outs, LinkText x) ∧ (∀ t, sig = some t → t.Ok) ∧
    (∀ t ∈ metas, t.Ok) ∧ regionsOk regions ∧
    (op.HasPorts ∨ ins = [] ∧ outs = [] ∧ sig = none) ∧ (op.HasRegions ∨ regions = []) ∧
    (∀ x, op = .custom (.apply x .nil) → ins = [] → outs = [] → sig = none → regions = [] →
      ¬ ImportLike x ∧ (metas = [] → ¬ ClauseLike x))

/-- Regions as the format can express them. -/
def Region.Ok : Region → Prop
  | .mk _ ins outs sig metas children =>
    (∀ x ∈ ins, LinkText x) ∧ (∀ x ∈ outs, LinkText x) ∧ (∀ t, sig = some t → t.Ok) ∧
    (∀ t ∈ metas, t.Ok) ∧ nodesOk children

def regionsOk : List Region → Prop
  | [] => True
  | r :: rs => r.Ok ∧ regionsOk rs

def nodesOk : List Node → Prop
  | [] => True
  | n :: ns => n.Ok ∧ nodesOk ns
end

def Module.Ok (m : Module) : Prop := (∀ t ∈ m.metas, t.Ok) ∧ nodesOk m.children

def Package.Ok (p : Package) : Prop := ∀ m ∈ p.modules, m.Ok

/-! ## Flattening -/

def Param.flat (p : Param) : Param := ⟨p.name, p.type.flat⟩

def Symbol.flat (s : Symbol) : Symbol :=
  ⟨s.visibility, s.name, s.params.map Param.flat, s.constraints.map Term.flat, s.signature.flat⟩

def Operation.flat : Operation → Operation
  | .dfg => .dfg
  | .cfg => .cfg
  | .block => .block
  | .defineFunc s => .defineFunc s.flat
  | .declareFunc s => .declareFunc s.flat
  | .custom t => .custom t.flat
  | .defineAlias s t => .defineAlias s.flat t.flat
  | .declareAlias s => .declareAlias s.flat
  | .tailLoop => .tailLoop
  | .conditional => .conditional
  | .declareConstructor s => .declareConstructor s.flat
  | .declareOperation s => .declareOperation s.flat
  | .import x => .import x

mutual
/-- The node with all its terms flattened. -/
def Node.flat : Node → Node
  | .mk op ins outs sig metas regions =>
    .mk op.flat ins outs (sig.map Term.flat) (metas.map Term.flat) (flatRegions regions)

def Region.flat : Region → Region
  | .mk kind ins outs sig metas children =>
    .mk kind ins outs (sig.map Term.flat) (metas.map Term.flat) (flatNodes children)

def flatRegions : List Region → List Region
  | [] => []
  | r :: rs => r.flat :: flatRegions rs

def flatNodes : List Node → List Node
  | [] => []
  | n :: ns => n.flat :: flatNodes ns
end

def Module.flat (m : Module) : Module := ⟨m.metas.map Term.flat, flatNodes m.children⟩

/-- The package with all its terms flattened. -/
def Package.flat (p : Package) : Package := ⟨p.modules.map Module.flat⟩

end Verif.Text
