import Verif.Builder.Model
import Verif.Validate.Spec
import Verif.Dataflow.AnalysisSpec

/-!
# Specification: functions as straight-line programs

A function that is built by calls is a program: its inputs, one line for each operation, which takes the results of
earlier lines, and its outputs. What such a program computes, and when it is well typed, is said here without Hugrs. Lines
are named by the nodes that the calls return: the inputs are 2, the outputs 3, and the lines begin with 4.
-/
namespace Verif.Builder

open Verif.Ops Verif.Validate Verif.Dataflow

/-- The operations that need no function and no graph inside. (The code panics for tags that are not among the
variants.) -/
def Plain : Ops.Op → Prop
  | .extensionOp .. | .const _ | .loadConstant _ => True
  | .tag k variants => k < variants.length
  | _ => False

namespace Prog

/-- The lines of the program. -/
def lines (P : Prog) : List (Ops.Op × List Wire) :=
  P.calls.filterMap fun | .node op ws => some (op, ws) | _ => none

/-- The types of all inputs. -/
def inputs (P : Prog) : List Types.Ty :=
  P.poly.body.input ++ P.calls.filterMap fun | .input t => some t | _ => none

/-- The types of all outputs. -/
def outputs (P : Prog) : List Types.Ty :=
  P.poly.body.output ++ P.calls.filterMap fun | .output t => some t | _ => none

/-- The lines that are ordered by `set_order`. -/
def orders (P : Prog) : List (Nat × Nat) :=
  P.calls.filterMap fun | .order a b => some (a, b) | _ => none

/-- The type of the function. -/
def type (P : Prog) : Types.PolyFunc := { P.poly with body := ⟨P.inputs, P.outputs⟩ }

/-- The operation with a name. -/
def op (P : Prog) : Nat → Ops.Op
  | 0 => .module
  | 1 => .funcDefn P.name P.type
  | 2 => .input P.inputs
  | 3 => .output P.outputs
  | k + 4 => (P.lines[k]?.map Prod.fst).getD .module

/-- What a wire carries. -/
def kind (P : Prog) (w : Wire) : Option Kind := ((P.op w.1).ports .outgoing)[w.2]?

/-- How often a wire is used. -/
def uses (P : Prog) (w : Wire) : Nat := (P.lines.flatMap Prod.snd ++ P.outs).count w

/-- The program after some of the calls. -/
def upTo (P : Prog) (calls : List Call) : Prog := { P with calls := calls, outs := [] }

/-- The wire is an input, or a result of a line. -/
def HasWire (P : Prog) (w : Wire) : Prop := w.1 ≠ 1 ∧ ∃ k, P.kind w = some k ∧ k.isOther = false

/-- The name is that of the inputs, of the outputs or of a line. -/
def HasNode (P : Prog) (n : Nat) : Prop := 2 ≤ n ∧ n < 4 + P.lines.length

/-- All wires and nodes that are given to the calls were returned by earlier calls. -/
structure Scoped (P : Prog) : Prop where
  plain : ∀ op ws, Call.node op ws ∈ P.calls → Plain op
  wires : ∀ pre op ws post, P.calls = pre ++ .node op ws :: post → ∀ w ∈ ws, (P.upTo pre).HasWire w
  orders : ∀ pre a b post, P.calls = pre ++ .order a b :: post → (P.upTo pre).HasNode a ∧ (P.upTo pre).HasNode b
  outs : ∀ w ∈ P.outs, P.HasWire w

/-- A line that has to come before another one. -/
def Before (P : Prog) (a b : Nat) : Prop :=
  (a, b) ∈ P.orders ∨ ∃ k op ws port, P.lines[k]? = some (op, ws) ∧ (a, port) ∈ ws ∧ b = 4 + k

/-- The inputs of an operation, without that for order. -/
def _root_.Verif.Builder.arguments (op : Ops.Op) : List Kind := (op.ports .incoming).filter fun k => !k.isOther

/-- A well-typed program: every line is given what it takes, all values that cannot be copied or discarded are used once,
the order asks for nothing impossible, and all types and arguments are well formed. -/
structure WellTyped (C : Context) (P : Prog) : Prop where
  wires : ∀ op ws, (op, ws) ∈ P.lines → ws.map P.kind = (arguments op).map some
  outs : P.outs.map P.kind = P.outputs.map fun t => some (.value t)
  linear : ∀ w t, P.kind w = some (.value t) → t.copyable = true ∨ P.uses w = 1
  orders : ∀ a b, (a, b) ∈ P.orders →
    .stateOrder ∈ (P.op a).ports .outgoing ∧ .stateOrder ∈ (P.op b).ports .incoming
  acyclic : ∀ n, ¬ Relation.TransGen P.Before n n
  types : ∀ op ws, (op, ws) ∈ P.lines → ArgsOk C P.poly.params op ∧ ∀ k ∈ op.ports .outgoing, KindOk C P.poly.params k
  inputs : ∀ t ∈ P.inputs, t.validate C.types P.poly.params = true
  type : P.type.validate C.types = true
  constants : ∀ k t ws, P.lines[k]? = some (.const t, ws) → C.constOk (4 + k) = true

end Prog

/-! ## What a program computes -/

variable {W E : Type}

/-- The values on some wires. -/
def gather (ρ : Wires W) : List Wire → Option (List (Val W))
  | [] => some []
  | w :: ws =>
    match ρ w.1 w.2, gather ρ ws with
    | some v, some vs => some (v :: vs)
    | _, _ => none

/-- What an operation may output, given its inputs. -/
def OpMeans (S : Sem W E) (n : Nat) (ins outs : List (Val W)) : Ops.Op → Prop
  | .tag t _ => outs = [.sum t ins]
  | .extensionOp ext name _ sig =>
    if ext = "prelude" ∧ name = "MakeTuple" then outs = [.sum 0 ins]
    else if ext = "prelude" ∧ name = "UnpackTuple" then ins = [.sum 0 outs] ∧ outs.length = sig.output.length
    else outs.length = sig.output.length ∧ S.ext n ins outs
  | _ => False

/-- The lines of a program, from the name `n` on, one after the other. -/
inductive Eval (S : Sem W E) : Nat → Wires W → List (Ops.Op × List Wire) → Wires W → Prop
  | nil {n : Nat} {ρ : Wires W} : Eval S n ρ [] ρ
  | const {n : Nat} {ρ σ : Wires W} {t : Types.Ty} {ws : List Wire} {rest : List (Ops.Op × List Wire)} :
      Eval S (n + 1) ρ rest σ → Eval S n ρ ((.const t, ws) :: rest) σ
  | load {n c p : Nat} {ρ σ : Wires W} {t : Types.Ty} {rest : List (Ops.Op × List Wire)} :
      Eval S (n + 1) (ρ.put n [S.value (S.const c)]) rest σ → Eval S n ρ ((.loadConstant t, [(c, p)]) :: rest) σ
  | op {n : Nat} {ρ σ : Wires W} {op : Ops.Op} {ws : List Wire} {ins outs : List (Val W)}
      {rest : List (Ops.Op × List Wire)} : gather ρ ws = some ins → OpMeans S n ins outs op →
      outs.length = numOuts op → Eval S (n + 1) (ρ.put n outs) rest σ → Eval S n ρ ((op, ws) :: rest) σ

/-- The program, given `args`, may output `res`. -/
def Prog.Computes (P : Prog) (S : Sem W E) (args res : List (Val W)) : Prop :=
  args.length = P.inputs.length ∧
    ∃ σ, Eval S 4 (Wires.put (fun _ _ => none) 2 args) P.lines σ ∧ gather σ P.outs = some res

end Verif.Builder
