import Verif.Dataflow.Analysis
import Verif.Dataflow.ValueSpec
import Verif.Validate.Spec

/-!
# Specification: the executions of a Hugr

An operational semantics of Hugrs, written from the HUGR specification (sections "Dataflow",
"Control flow", "Extended edges") without reference to the analysis.

A function that was called, or whatever the execution was started with, has an *activation*: the
values that were last computed on the outgoing ports of its nodes, and the regions that were entered.
A node of a region that was entered can be executed when there are values on the wires into it.
Nodes can be executed in any order and more than once, and values stay until they are overwritten:
that allows more than the executions of the specification, so what holds for all executions here
holds for those.
-/
namespace Verif.Dataflow

open Verif.Graph Verif.Ops

variable {Meta W E : Type}

/-- Runtime values. A function value is the node of the function; functions that come from elsewhere
are leaves. -/
abbrev Val (W : Type) := Conc W Nat Unit

/-- The meaning of what the Hugr does not define: what an extension operation may output, given its
inputs, and the leaves of constants. `const n` is the value of the constant node `n`; `external f`
is what a function without a body may return, and `unknown w` what a function that is not defined in
this Hugr may return. -/
structure Sem (W E : Type) where
  ext : Nat → List (Val W) → List (Val W) → Prop
  const : Nat → CVal E
  leaf : E → W
  external : Nat → List (Val W) → List (Val W) → Prop
  unknown : W → List (Val W) → List (Val W) → Prop

mutual
/-- The value of a constant. -/
def Sem.value (S : Sem W E) : CVal E → Val W
  | .leaf e => .val (S.leaf e)
  | .sum tag vals => .sum tag (S.values vals)
/-- The values of the elements of a constant. -/
def Sem.values (S : Sem W E) : List (CVal E) → List (Val W)
  | [] => []
  | v :: vs => S.value v :: S.values vs
end

/-- The values on outgoing ports. -/
abbrev Wires (W : Type) := Nat → Nat → Option (Val W)

/-- The node `n` outputs `outs`. -/
def Wires.put (ρ : Wires W) (n : Nat) (outs : List (Val W)) : Wires W :=
  fun m p => if m = n then outs[p]? else ρ m p

/-- How many values a node takes and gives. -/
def numIns (op : Ops.Op) : Nat := ((op.ports .incoming).filter Kind.isValue).length
def numOuts (op : Ops.Op) : Nat := ((op.ports .outgoing).filter Kind.isValue).length

/-- There are values on all wires into `n`: these. -/
def Ready (h : Hugr Ops.Op Meta) (ρ : Wires W) (n : Nat) (ins : List (Val W)) : Prop :=
  ins.length = numIns (h.ops n) ∧
  ∀ i v, ins[i]? = some v →
    ∃ l ∈ h.links, l.dst = n ∧ l.dstPort = i ∧ ρ l.src l.srcPort = some v

/-- The first two children of a region. -/
def HasIO (h : Hugr Ops.Op Meta) (p i o : Nat) : Prop := ∃ rest, h.children p = i :: o :: rest

/-- A function with a body. -/
def IsDefn (h : Hugr Ops.Op Meta) (f : Nat) : Prop := ∃ name sig, h.ops f = .funcDefn name sig

/-- The operation `n`, given `ins`, calls `f` with `args`. -/
inductive Calls (h : Hugr Ops.Op Meta) (n : Nat) : List (Val W) → Nat → List (Val W) → Prop
  | direct {sig : Types.PolyFunc} {targs : List Types.Term} {inst : Types.Signature}
      {args : List (Val W)} {l : Link} : h.ops n = .call sig targs inst → l ∈ h.links → l.dst = n →
      l.dstPort = inst.input.length → Calls h n args l.src args
  | indirect {sig : Types.Signature} {f : Nat} {args : List (Val W)} :
      h.ops n = .callIndirect sig → Calls h n (.func f () :: args) f args

/-- What a node without children may output, other than a call of a function with a body. -/
inductive Leaf (h : Hugr Ops.Op Meta) (S : Sem W E) (n : Nat) : List (Val W) → List (Val W) → Prop
  | makeTuple {targs : List Types.Term} {sig : Types.Signature} {ins : List (Val W)} :
      h.ops n = .extensionOp "prelude" "MakeTuple" targs sig → Leaf h S n ins [.sum 0 ins]
  | unpackTuple {targs : List Types.Term} {sig : Types.Signature} {elems : List (Val W)} :
      h.ops n = .extensionOp "prelude" "UnpackTuple" targs sig →
      elems.length = sig.output.length → Leaf h S n [.sum 0 elems] elems
  | tag {t : Nat} {variants : List (List Types.Ty)} {ins : List (Val W)} :
      h.ops n = .tag t variants → Leaf h S n ins [.sum t ins]
  | loadConstant {t t' : Types.Ty} {l : Link} : h.ops n = .loadConstant t → l ∈ h.links →
      l.dst = n → l.dstPort = 0 → h.ops l.src = .const t' →
      Leaf h S n [] [S.value (S.const l.src)]
  | loadFunction {sig : Types.PolyFunc} {targs : List Types.Term} {inst : Types.Signature} {l : Link} :
      h.ops n = .loadFunction sig targs inst → l ∈ h.links → l.dst = n → l.dstPort = 0 →
      Leaf h S n [] [.func l.src ()]
  | ext {ext name : String} {targs : List Types.Term} {sig : Types.Signature}
      {ins outs : List (Val W)} : h.ops n = .extensionOp ext name targs sig →
      ¬ (ext = "prelude" ∧ (name = "MakeTuple" ∨ name = "UnpackTuple")) →
      outs.length = sig.output.length → S.ext n ins outs → Leaf h S n ins outs
  | external {ins outs args : List (Val W)} {f : Nat} : Calls h n ins f args → ¬ IsDefn h f →
      outs.length = numOuts (h.ops n) → S.external f args outs → Leaf h S n ins outs
  | unknown {sig : Types.Signature} {w : W} {args outs : List (Val W)} :
      h.ops n = .callIndirect sig → outs.length = numOuts (h.ops n) → S.unknown w args outs →
      Leaf h S n (.val w :: args) outs

/-- The operation `n`, given `ins`, starts by entering the region `p` with the values `vals`. -/
inductive Begins (h : Hugr Ops.Op Meta) (n : Nat) : List (Val W) → Nat → List (Val W) → Prop
  | dfg {sig : Types.Signature} {ins : List (Val W)} : h.ops n = .dfg sig → Begins h n ins n ins
  | loop {ji jo rest : List Types.Ty} {ins : List (Val W)} : h.ops n = .tailLoop ji jo rest →
      Begins h n ins n ins
  | cond {rows : List (List Types.Ty)} {other outs row : List Types.Ty} {tag c : Nat}
      {elems rest : List (Val W)} : h.ops n = .conditional rows other outs →
      (h.children n)[tag]? = some c → rows[tag]? = some row → elems.length = row.length →
      Begins h n (.sum tag elems :: rest) c (elems ++ rest)
  | cfg {sig : Types.Signature} {entry : Nat} {rest : List Nat} {ins : List (Val W)} :
      h.ops n = .cfg sig → h.children n = entry :: rest → Begins h n ins entry ins

/-- An activation: what it was started with, the values on the wires, and the regions entered. -/
structure Activation (W : Type) where
  root : Nat
  wires : Wires W
  entered : Nat → Prop

/-- The node `n` outputs `outs`. -/
def Activation.put (a : Activation W) (n : Nat) (outs : List (Val W)) : Activation W :=
  { a with wires := a.wires.put n outs }

/-- The region `p`, whose input node is `i`, is entered with the values `vals`. -/
def Activation.enter (a : Activation W) (p i : Nat) (vals : List (Val W)) : Activation W :=
  { a with wires := a.wires.put i vals, entered := fun q => q = p ∨ a.entered q }

/-- The activation at its start. -/
def Activation.start (root p i : Nat) (vals : List (Val W)) : Activation W :=
  Activation.enter ⟨root, fun _ _ => none, fun _ => False⟩ p i vals

/-- The region of the node has been entered. -/
def Activation.at (h : Hugr Ops.Op Meta) (a : Activation W) (n : Nat) : Prop :=
  ∃ p, h.hier.parent n = some p ∧ a.entered p

/-- The steps inside an activation. If the execution was started with a case or a basic block alone,
it ends there. -/
inductive Step (h : Hugr Ops.Op Meta) (S : Sem W E) (a : Activation W) : Activation W → Prop
  | leaf {n : Nat} {ins outs : List (Val W)} : a.at h n → Ready h a.wires n ins →
      Leaf h S n ins outs → Step h S a (a.put n outs)
  | enter {n p i o : Nat} {ins vals : List (Val W)} : a.at h n → Ready h a.wires n ins →
      Begins h n ins p vals → HasIO h p i o → Step h S a (a.enter p i vals)
  | leaveDfg {p i o : Nat} {sig : Types.Signature} {outs : List (Val W)} : a.entered p →
      h.ops p = .dfg sig → HasIO h p i o → Ready h a.wires o outs → Step h S a (a.put p outs)
  | leaveCase {p c i o : Nat} {sig : Types.Signature} {outs : List (Val W)} : a.entered p →
      p ≠ a.root → h.ops p = .case sig → h.hier.parent p = some c → HasIO h p i o →
      Ready h a.wires o outs → Step h S a (a.put c outs)
  | again {p i o : Nat} {ji jo rest : List Types.Ty} {elems others : List (Val W)} : a.entered p →
      h.ops p = .tailLoop ji jo rest → HasIO h p i o →
      Ready h a.wires o (.sum 0 elems :: others) → elems.length = ji.length →
      Step h S a (a.put i (elems ++ others))
  | leaveLoop {p i o : Nat} {ji jo rest : List Types.Ty} {elems others : List (Val W)} :
      a.entered p → h.ops p = .tailLoop ji jo rest → HasIO h p i o →
      Ready h a.wires o (.sum 1 elems :: others) → elems.length = jo.length →
      Step h S a (a.put p (elems ++ others))
  | jump {p i o q i' o' tag : Nat} {ins other row : List Types.Ty} {rows : List (List Types.Ty)}
      {elems others : List (Val W)} {l : Link} : a.entered p → p ≠ a.root →
      h.ops p = .dataflowBlock ins other rows → HasIO h p i o →
      Ready h a.wires o (.sum tag elems :: others) → rows[tag]? = some row →
      elems.length = row.length → l ∈ h.links → l.src = p → l.srcPort = tag → l.dst = q →
      (∃ x y z, h.ops q = .dataflowBlock x y z) → HasIO h q i' o' →
      Step h S a (a.enter q i' (elems ++ others))
  | leaveCfg {p i o g tag : Nat} {ins other row outs : List Types.Ty} {rows : List (List Types.Ty)}
      {elems others : List (Val W)} {l : Link} : a.entered p → p ≠ a.root →
      h.ops p = .dataflowBlock ins other rows → HasIO h p i o →
      Ready h a.wires o (.sum tag elems :: others) → rows[tag]? = some row →
      elems.length = row.length → l ∈ h.links → l.src = p → l.srcPort = tag →
      h.ops l.dst = .exitBlock outs → h.hier.parent p = some g →
      Step h S a (a.put g (elems ++ others))

/-- The operations whose region can be started directly. -/
def IsRegion (h : Hugr Ops.Op Meta) (n : Nat) : Prop :=
  IsDefn h n ∨ (∃ sig, h.ops n = .case sig) ∨ ∃ x y z, h.ops n = .dataflowBlock x y z

/-- The activations that occur when the execution may be started with those nodes and inputs that
are allowed by `Root`: they are of the node `r`, that was given `args`. -/
inductive Occurs (h : Hugr Ops.Op Meta) (S : Sem W E) (Root : Nat → List (Val W) → Prop) :
    Nat → List (Val W) → Activation W → Prop
  | region {r i o : Nat} {args : List (Val W)} : Root r args → IsRegion h r → HasIO h r i o →
      Occurs h S Root r args (.start r r i args)
  | node {r p i o : Nat} {args vals : List (Val W)} : Root r args → Begins h r args p vals →
      HasIO h p i o → Occurs h S Root r args (.start r p i vals)
  | step {r : Nat} {args : List (Val W)} {a b : Activation W} : Occurs h S Root r args a →
      Step h S a b → Occurs h S Root r args b
  | call {r n f i o : Nat} {args ins fargs : List (Val W)} {a : Activation W} :
      Occurs h S Root r args a → a.at h n → Ready h a.wires n ins → Calls h n ins f fargs →
      IsDefn h f → HasIO h f i o → Occurs h S Root f fargs (.start f f i fargs)
  | ret {r n f i o : Nat} {args ins fargs outs : List (Val W)} {a b : Activation W} :
      Occurs h S Root r args a → a.at h n → Ready h a.wires n ins → Calls h n ins f fargs →
      IsDefn h f → HasIO h f i o → Occurs h S Root f fargs b → Ready h b.wires o outs →
      outs.length = numOuts (h.ops n) → Occurs h S Root r args (a.put n outs)

/-! ## What the analysis is given -/

/-- The values given for some inputs describe the actual inputs; the inputs that are not given can be
anything. A later value for the same input replaces an earlier one. -/
def Given {V : Type} (vd : V → W → Prop) (inValues : List (Nat × Abs V)) (args : List (Val W)) :
    Prop :=
  ∀ i v, args[i]? = some v → ∀ pre post pv, inValues = pre ++ (i, pv) :: post →
    (∀ e ∈ post, e.1 ≠ i) → PV.Describes vd pv v

/-- How many inputs the region or node takes. -/
def numArgs (h : Hugr Ops.Op Meta) (n : Nat) : Nat :=
  match Validate.body (h.ops n) with
  | some (ins, _) => ins.length
  | none => numIns (h.ops n)

/-- The starts of an execution that the calls of `prepopulate_inputs` announced. -/
def Announced {V : Type} (h : Hugr Ops.Op Meta) (vd : V → W → Prop) (calls : List (PreCall V))
    (n : Nat) (args : List (Val W)) : Prop :=
  h.live n = true ∧ args.length = numArgs h n ∧
  ∃ inValues, PreCall.inputs n inValues ∈ calls ∧ Given vd inValues args

/-- The starts of an execution that `run` is told about: those announced by the calls before, and
those of the entrypoint with the values given to `run`, which stand for inputs that can be anything
if there was no call at all. -/
def Starts {V : Type} (h : Hugr Ops.Op Meta) (vd : V → W → Prop) (calls : List (PreCall V))
    (inValues : List (Nat × Abs V)) (n : Nat) (args : List (Val W)) : Prop :=
  Announced h vd calls n args ∨
  ((inValues ≠ [] ∨ calls = []) ∧ Announced h vd [.inputs h.entrypoint inValues] n args)

/-- The nodes that an execution may be started with. -/
def StartedAt {V : Type} (h : Hugr Ops.Op Meta) (calls : List (PreCall V)) (n : Nat) : Prop :=
  n = h.entrypoint ∨ ∃ inValues, PreCall.inputs n inValues ∈ calls

/-- The leaf `e` is in the constant; the path to it gives the positions, the innermost first. -/
inductive LeafAt : CVal E → List Nat → E → Prop
  | leaf (e : E) : LeafAt (.leaf e) [] e
  | sum {tag i : Nat} {vals : List (CVal E)} {v : CVal E} {path : List Nat} {e : E} :
      vals[i]? = some v → LeafAt v path e → LeafAt (.sum tag vals) (path ++ [i]) e

/-- The operation `n` loads the constant `c`. -/
def LoadsConst (h : Hugr Ops.Op Meta) (n c : Nat) : Prop :=
  ∃ t l, h.ops n = .loadConstant t ∧ l ∈ h.links ∧ l.dst = n ∧ l.dstPort = 0 ∧ l.src = c

/-- An operation of an extension. -/
def IsExt (h : Hugr Ops.Op Meta) (n : Nat) : Prop :=
  h.live n = true ∧ ∃ x name targs sig, h.ops n = .extensionOp x name targs sig

/-- What the analysis relies on: constants and extension operations behave as the context says, as
long as the leaves are `good` and the inputs are among those in `Seen`, and only good leaves are
made. -/
structure FaithfulOn {V : Type} [AbsVal V] (Seen : Nat → List (Abs V) → Prop) (vd : V → W → Prop)
    (good : V → Prop) (h : Hugr Ops.Op Meta) (K : DFContext V E) (S : Sem W E) : Prop where
  constant : S.const = K.constant
  load : ∀ n c path e v, LoadsConst h n c → LeafAt (K.constant c) path e →
    K.load n path e = some v → good v ∧ vd v (S.leaf e)
  interp : ∀ n abs ins outs, Seen n abs → (∀ a ∈ abs, PV.AllLeaves good a) →
    List.Forall₂ (PV.Describes vd) abs ins → S.ext n ins outs →
    ∀ p v, outs[p]? = some v → PV.Describes vd (K.interp n abs p) v
  join_good : ∀ a b c x, good a → good b → AbsVal.tryJoin a b = some (c, x) → good c
  interp_good : ∀ n abs p, Seen n abs → (∀ a ∈ abs, PV.AllLeaves good a) →
    PV.AllLeaves good (K.interp n abs p)

/-- ... for all inputs of extension operations. -/
abbrev Faithful {V : Type} [AbsVal V] (vd : V → W → Prop) (good : V → Prop) (h : Hugr Ops.Op Meta)
    (K : DFContext V E) (S : Sem W E) : Prop := FaithfulOn (fun n _ => IsExt h n) vd good h K S

/-- The condition under which the results are trusted. Each call has one function, which has a body;
the function values that the analysis found at indirect calls have a body; and if an indirect call
may call a function that the analysis could not tell, then all functions were announced without
values for their inputs. -/
structure Covered {V : Type} (h : Hugr Ops.Op Meta) (calls : List (PreCall V)) (s : AState V) :
    Prop where
  call : ∀ n sig targs inst, h.live n = true → h.ops n = .call sig targs inst →
    ∃ f, IsDefn h f ∧ ∀ l ∈ h.links, l.dst = n → l.dstPort = inst.input.length → l.src = f
  found : ∀ n sig f, h.live n = true → h.ops n = .callIndirect sig → s.inOf n 0 = .func f () →
    IsDefn h f
  unknown : ∀ n sig, h.live n = true → h.ops n = .callIndirect sig →
    unknownFunction (s.inOf n 0) = true →
    ∀ f, h.live f = true → IsDefn h f → PreCall.inputs f [] ∈ calls

end Verif.Dataflow
