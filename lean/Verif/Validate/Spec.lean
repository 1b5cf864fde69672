import Verif.Validate.Model

/-!
# Specification of a valid Hugr

The rules of the HUGR specification (sections "Validity", "Edges", "Control flow", "Extensible type
system"), said about operations, ports, links and the hierarchy, without the flags, tags, traversals
and caches of the code.
-/
namespace Verif.Validate

open Verif.Graph Verif.Ops Verif.Types

variable {Meta : Type}

/-! ## Containers -/

/-- The inputs and outputs of the dataflow graph inside an operation. A loop body and a basic block
output a sum that tells how to go on. -/
def body : Ops.Op → Option (List Ty × List Ty)
  | .funcDefn _ s => some (s.body.input, s.body.output)
  | .dfg s => some (s.input, s.output)
  | .case s => some (s.input, s.output)
  | .tailLoop ji jo rest => some (ji ++ rest, sumOf [ji, jo] :: rest)
  | .dataflowBlock ins other rows => some (ins, sumOf rows :: other)
  | _ => none

/-- The operations that can be a child of a dataflow graph. -/
def DataflowChild : Ops.Op → Prop
  | .const .. | .input .. | .output .. | .call .. | .callIndirect .. | .loadConstant ..
  | .loadFunction .. | .dfg .. | .extensionOp .. | .tag .. | .tailLoop .. | .cfg ..
  | .conditional .. => True
  | _ => False

/-- Which operations may be children of which. -/
def MayContain (parent child : Ops.Op) : Prop :=
  match parent with
  | .module => match child with
    | .funcDefn .. | .funcDecl .. | .aliasDefn .. | .aliasDecl .. | .const .. => True
    | _ => False
  | .conditional .. => match child with
    | .case .. => True
    | _ => False
  | .cfg .. => match child with
    | .dataflowBlock .. | .exitBlock .. | .const .. => True
    | _ => False
  | op => (body op).isSome = true ∧ DataflowChild child

/-- The operations that may have children. -/
def Container : Ops.Op → Prop
  | .module | .conditional .. | .cfg .. => True
  | op => (body op).isSome = true

def IsIO (op : Ops.Op) : Prop := (∃ ts, op = .input ts) ∨ ∃ ts, op = .output ts

/-- The children of a node are those its operation asks for: a dataflow graph begins with its only
input and its only output, which have the types of the graph; a conditional has one case for each
variant, with its types; a control-flow graph begins with a block that takes its inputs and with its
only exit, which takes its outputs. -/
def ChildrenOk (h : Hugr Ops.Op Meta) (n : Nat) : Prop :=
  match h.ops n with
  | .module => True
  | .conditional rows other outs =>
    rows ≠ [] ∧ (h.children n).map h.ops = rows.map fun r => .case ⟨r ++ other, outs⟩
  | .cfg sig => ∃ entry exit rest o r, h.children n = entry :: exit :: rest ∧
      h.ops entry = .dataflowBlock sig.input o r ∧ h.ops exit = .exitBlock sig.output ∧
      ∀ c ∈ rest, ∀ outs, h.ops c ≠ .exitBlock outs
  | op => match body op with
    | some (i, o) => ∃ inp out rest, h.children n = inp :: out :: rest ∧
        h.ops inp = .input i ∧ h.ops out = .output o ∧ ∀ c ∈ rest, ¬ IsIO (h.ops c)
    | none => h.children n = []

/-! ## Edges -/

/-- There is a link from one child of `p` to another. -/
def RegionEdge (h : Hugr Ops.Op Meta) (p a b : Nat) : Prop :=
  a ∈ h.children p ∧ b ∈ h.children p ∧ ∃ l ∈ h.links, l.src = a ∧ l.dst = b

/-- Every way from `entry` to `a` along `edge` goes through `b`, and there is one. -/
def Dominates (edge : Nat → Nat → Prop) (entry b a : Nat) : Prop :=
  Relation.ReflTransGen edge entry a ∧
  ∀ path : List Nat, path.head? = some entry → path.getLast? = some a → path.IsChain edge → b ∈ path

/-- The kind of the port that a link comes from. -/
def srcKind (h : Hugr Ops.Op Meta) (l : Link) : Option Kind :=
  ((h.ops l.src).ports .outgoing)[l.srcPort]?

/-- Where a link may go. A link that leaves the graph of its source carries static data or a copyable
value. It goes to a node inside a sibling of the source, which must come after the source if the link
carries a value; or, if it carries a value and the source is in a block of a control-flow graph, to a
node inside another block, that the block of the source dominates. -/
def EdgeOk (h : Hugr Ops.Op Meta) (l : Link) (kind : Kind) : Prop :=
  ∃ p, h.hier.parent l.src = some p ∧
  (h.hier.parent l.dst = some p ∨
   ∃ q a, h.hier.parent l.dst = some q ∧ Above h.hier.parent q a ∧
    ((kind.isStatic = true ∧ h.hier.parent a = some p) ∨
     (∃ t, kind = .value t ∧ t.copyable = true) ∧
      ((h.hier.parent a = some p ∧
          ∃ o ∈ h.links, o.src = l.src ∧ o.dst = a ∧ srcKind h o = some .stateOrder) ∨
       ∃ g sig entry rest, a ≠ p ∧ h.hier.parent p = some g ∧ h.hier.parent a = some g ∧
          h.ops g = .cfg sig ∧ h.children g = entry :: rest ∧
          Dominates (RegionEdge h g) entry p a)))

/-- A link between basic blocks: what the block passes to that successor is what the successor
takes. -/
def BlockLinkOk (h : Hugr Ops.Op Meta) (l : Link) : Prop :=
  ∃ ins other rows row, h.ops l.src = .dataflowBlock ins other rows ∧ rows[l.srcPort]? = some row ∧
    ((∃ o r, h.ops l.dst = .dataflowBlock (row ++ other) o r) ∨ h.ops l.dst = .exitBlock (row ++ other))

/-! ## Types -/

/-- The type variables that may be used at a node: those of the innermost function around it. -/
inductive DeclsAt (h : Hugr Ops.Op Meta) : Nat → List Term → Prop
  | root : DeclsAt h h.moduleRoot []
  | inside {n p : Nat} {name : String} {sig : PolyFunc} : h.hier.parent n = some p →
      h.ops p = .funcDefn name sig → DeclsAt h n sig.params
  | inherited {n p : Nat} {decls : List Term} : h.hier.parent n = some p →
      (∀ name sig, h.ops p ≠ .funcDefn name sig) → DeclsAt h p decls → DeclsAt h n decls

/-- The types of a port are well formed: values may use the given variables, static data may not. -/
def KindOk (C : Context) (decls : List Term) : Kind → Prop
  | .value t => t.validate C.types decls = true
  | .const t => t.validate C.types [] = true
  | .function pf => pf.validate C.types = true
  | _ => True

/-- The arguments of an operation fit its parameters: a call instantiates the function it says it
calls; the arguments of an extension operation are well formed and fit its definition, where static
arguments use no variables. -/
def ArgsOk (C : Context) (decls : List Term) : Ops.Op → Prop
  | .call sig args inst => sig.instantiate C.types args = .ok inst
  | .loadFunction sig args inst => sig.instantiate C.types args = .ok inst
  | .extensionOp ext name args _ =>
    match C.defs ext name with
    | .poly params => validateTerms C.types decls args = true ∧ checkTerms args params = true
    | .custom static compute => ∃ staticArgs otherArgs params, args = staticArgs ++ otherArgs ∧
        validateTerms C.types [] staticArgs = true ∧ checkTerms staticArgs static = true ∧
        compute staticArgs = some params ∧
        validateTerms C.types decls otherArgs = true ∧ checkTerms otherArgs params = true
    | .missing => False
  | _ => True

/-! ## Valid Hugrs -/

/-- The links at a port. -/
def linksTo (h : Hugr Ops.Op Meta) (n port : Nat) : List Link :=
  h.links.filter fun l => l.dst = n && l.dstPort = port
def linksFrom (h : Hugr Ops.Op Meta) (n port : Nat) : List Link :=
  h.links.filter fun l => l.src = n && l.srcPort = port

/-- How many links an incoming port has: a value and a constant come from one place. -/
def InDegreeOk (kind : Kind) (n : Nat) : Prop :=
  match kind with
  | .value _ | .const _ => n = 1
  | .function _ => 1 ≤ n
  | .controlFlow | .stateOrder => True

/-- How many links an outgoing port has: values that may not be copied or discarded are used once,
and control goes to one place. -/
def OutDegreeOk (kind : Kind) (n : Nat) : Prop :=
  match kind with
  | .value t => t.copyable = true ∨ n = 1
  | .controlFlow => n = 1
  | _ => True

/-- The public functions of a name. -/
def Exports (C : Context) (h : Hugr Ops.Op Meta) (n : Nat) (name : String) (sig : PolyFunc)
    (isDefn : Bool) : Prop :=
  n ∈ h.children h.moduleRoot ∧ C.isPublic n = true ∧
  ((isDefn = false ∧ h.ops n = .funcDecl name sig) ∨ (isDefn = true ∧ h.ops n = .funcDefn name sig))

/-- A valid Hugr. -/
structure Valid (C : Context) (h : Hugr Ops.Op Meta) : Prop where
  /-- The tag of a `Tag` operation is one of its variants. -/
  tags : ∀ n, h.live n = true → (h.ops n).tagOk = true
  /-- Every node has the ports of its operation. -/
  ports : ∀ n, h.live n = true → h.ins n = ((h.ops n).ports .incoming).length ∧
    h.outs n = ((h.ops n).ports .outgoing).length
  /-- Children suit their parent. -/
  contains : ∀ n p, h.hier.parent n = some p → MayContain (h.ops p) (h.ops n)
  children : ∀ n, h.live n = true → ChildrenOk h n
  /-- The entrypoint is a container. -/
  entrypoint : Container (h.ops h.entrypoint)
  /-- Links between basic blocks pass the right values. -/
  blocks : ∀ l ∈ h.links, ∀ p sig, h.ops p = .cfg sig → l.src ∈ h.children p →
    l.dst ∈ h.children p → BlockLinkOk h l
  /-- Dataflow graphs have no cycles. -/
  acyclic : ∀ p, h.live p = true → (body (h.ops p)).isSome = true →
    ∀ n, ¬ Relation.TransGen (RegionEdge h p) n n
  constants : ∀ n t, h.live n = true → h.ops n = .const t → C.constOk n = true
  /-- Ports are linked as often as their kind allows. -/
  inDegree : ∀ n port kind, h.live n = true → ((h.ops n).ports .incoming)[port]? = some kind →
    InDegreeOk kind (linksTo h n port).length
  outDegree : ∀ n port kind, h.live n = true → ((h.ops n).ports .outgoing)[port]? = some kind →
    OutDegreeOk kind (linksFrom h n port).length
  /-- Linked ports have the same type, and the link goes where it may go. -/
  kinds : ∀ l ∈ h.links, ∃ kind, srcKind h l = some kind ∧
    ((h.ops l.dst).ports .incoming)[l.dstPort]? = some kind ∧ EdgeOk h l kind
  /-- Types and arguments are well formed. -/
  types : ∀ n decls, h.live n = true → DeclsAt h n decls → ArgsOk C decls (h.ops n) ∧
    ∀ kind ∈ (h.ops n).ports .outgoing, KindOk C decls kind
  /-- Two public functions of the same name are declarations of the same type. -/
  exports : ∀ a b name siga sigb da db, Exports C h a name siga da → Exports C h b name sigb db →
    a ≠ b → siga = sigb ∧ da = false ∧ db = false

end Verif.Validate
