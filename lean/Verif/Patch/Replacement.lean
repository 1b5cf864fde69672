import Verif.Patch.MoveOut
import Verif.Ops.PortProps

/-!
# Model of checking a replacement

Source: `/repo/hugr-core/src/hugr/patch/replace.rs`: `Replacement` and its `verify`, and what `merge_basic_blocks` asks
for.
-/
namespace Verif.Patch

open Verif.Graph Verif.Ops Verif.Passes Verif.Validate

variable {Meta : Type}

/-- `NewEdgeKind`, replace.rs:34-57. -/
inductive NewEdgeKind where
  | order
  | value (src tgt : Nat)
  | static (src tgt : Nat)
  | controlFlow (src : Nat)

/-- `NewEdgeSpec`, replace.rs:20-31. -/
structure NewEdge where
  src : Nat
  tgt : Nat
  kind : NewEdgeKind

/-- `Replacement`, replace.rs:61-93. `adoptions` is a map; the pairs are in the order of its iteration. -/
structure Replacement (Meta : Type) where
  removal : List Nat
  replacement : Hugr Ops.Op Meta
  adoptions : List (Nat × Nat)
  muInp : List NewEdge
  muOut : List NewEdge
  muNew : List NewEdge

/-- `WhichEdgeSpec`, replace.rs:508-518, without the edge. -/
inductive WhichEdge where
  | hostToRepl | replToHost | hostToHost
  deriving DecidableEq

/-- `ReplaceError`, replace.rs:472-505. Simplification: the nodes and edges in the errors are left out. -/
inductive ReplaceError where
  | cantReplaceRoot
  | multipleParents
  | wrongRootNodeTag
  | invalidAdoptingParent
  | adopteesNotSeparate
  | badEdgeSpec (dir : Ops.Dir) (which : WhichEdge)
  | noRemovedEdge (which : WhichEdge)
  | badEdgeKind (dir : Ops.Dir) (which : WhichEdge)
  deriving DecidableEq

/-- What a check gives. -/
inductive Vet (α : Type) where
  | ok (a : α)
  | err (e : ReplaceError)
  | panic
  deriving DecidableEq

/-- The operator `?`. -/
def Vet.andThen {α β : Type} : Vet α → (α → Vet β) → Vet β
  | .ok a, f => f a
  | .err e, _ => .err e
  | .panic, _ => .panic

/-- A loop of checks. -/
def checkEach {α : Type} (f : α → Vet Unit) : List α → Vet Unit
  | [] => .ok ()
  | a :: as => (f a).andThen fun _ => checkEach f as

/-- An error if the condition does not hold. -/
def ensure (b : Bool) (e : ReplaceError) : Vet Unit := if b then .ok () else .err e

/-- Whether the port has a kind that is as asked for. -/
def kindIs (f : Kind → Bool) : Run (Option Kind) → Vet Bool
  | .panic => .panic
  | .ok none => .ok false
  | .ok (some k) => .ok (f k)

/-- Whether the source port is of the kind of the edge: the `match` of `check_src`, replace.rs:98-109. -/
def srcKindOk (op : Ops.Op) : NewEdgeKind → Vet Bool
  | .order => .ok (decide (op.otherPortKind .outgoing = some .stateOrder))
  | .value s _ => kindIs Kind.isValue (op.portKind .outgoing s)
  | .static s _ => kindIs Kind.isStatic (op.portKind .outgoing s)
  | .controlFlow s => kindIs (fun k => decide (k = .controlFlow)) (op.portKind .outgoing s)

/-- Whether the target port is of the kind of the edge: the `match` of `check_tgt`, replace.rs:122-134. -/
def tgtKindOk (op : Ops.Op) : NewEdgeKind → Vet Bool
  | .order => .ok (decide (op.otherPortKind .incoming = some .stateOrder))
  | .value _ t => kindIs Kind.isValue (op.portKind .incoming t)
  | .static _ t => kindIs Kind.isStatic (op.portKind .incoming t)
  | .controlFlow _ => kindIs (fun k => decide (k = .controlFlow)) (op.portKind .incoming 0)

/-- `check_src`, replace.rs:96-118. -/
def checkSrc (h : Hugr Ops.Op Meta) (which : WhichEdge) (e : NewEdge) : Vet Unit :=
  (srcKindOk (h.ops e.src) e.kind).andThen fun b => ensure b (.badEdgeKind .outgoing which)

/-- `check_tgt`, replace.rs:120-143. -/
def checkTgt (h : Hugr Ops.Op Meta) (which : WhichEdge) (e : NewEdge) : Vet Unit :=
  (tgtKindOk (h.ops e.tgt) e.kind).andThen fun b => ensure b (.badEdgeKind .incoming which)

/-- `descends_from_legal`, replace.rs:155-163. `fuel` bounds the height. -/
def descendsFrom (h : Hugr Ops.Op Meta) (legal : List Nat) : Nat → Nat → Bool
  | 0, _ => false
  | fuel + 1, n =>
    if n ∈ legal then true
    else
      match h.getParent n with
      | none => false
      | some p => descendsFrom h legal fuel p

/-- `check_existing_edge`, replace.rs:147-172. -/
def checkExisting (h : Hugr Ops.Op Meta) (legal : List Nat) (which : WhichEdge) (e : NewEdge) : Vet Unit :=
  match e.kind with
  | .value _ t | .static _ t =>
    match singleLinkedOutput h e.tgt t with
    | some s => ensure (descendsFrom h legal (h.cap + 1) s.1) (.noRemovedEdge which)
    | none => .err (.noRemovedEdge which)
  | _ => .ok ()

/-- `check_parent`, replace.rs:176-201. -/
def checkParent (h : Hugr Ops.Op Meta) (r : Replacement Meta) : Vet Nat :=
  match (r.removal.map h.getParent).dedup with
  | [none] => .err .cantReplaceRoot
  | [some p] =>
    if (h.ops p).opTag = (r.replacement.ops r.replacement.entrypoint).opTag then .ok p else .err .wrongRootNodeTag
  | _ => .err .multipleParents

/-- The loop of `get_removed_nodes`, replace.rs:226-234. The result is what is removed and what is left of
`transferred`. The assertion of line 229 is made in debug builds only. -/
def removedLoop (h : Hugr Ops.Op Meta) : Nat → List Nat → List Nat → List Nat → Vet (List Nat × List Nat)
  | 0, _, _, _ => .panic
  | _, [], transferred, removed => .ok (removed, transferred)
  | fuel + 1, n :: queue, transferred, removed =>
    if n ∈ removed then .panic
    else if n ∈ transferred then removedLoop h fuel queue (transferred.erase n) (n :: removed)
    else removedLoop h fuel (queue ++ h.children n) transferred (n :: removed)

/-- `get_removed_nodes`, replace.rs:203-241. -/
def getRemoved (h : Hugr Ops.Op Meta) (r : Replacement Meta) : Vet (List Nat) :=
  (checkEach (fun a => ensure (r.replacement.live a.1 &&
      !(flags (r.replacement.ops a.1)).allowedChildren.isEmpty &&
      (r.replacement.children a.1).isEmpty) .invalidAdoptingParent) r.adoptions).andThen fun _ =>
  (ensure (decide ((r.adoptions.map Prod.snd).Nodup)) .adopteesNotSeparate).andThen fun _ =>
  (removedLoop h (h.cap + 1) r.removal (r.adoptions.map Prod.snd) []).andThen fun s =>
  (ensure s.2.isEmpty .adopteesNotSeparate).andThen fun _ => .ok s.1

/-- `verify`, replace.rs:248-318. -/
def Replacement.verify (h : Hugr Ops.Op Meta) (r : Replacement Meta) : Vet Unit :=
  (checkParent h r).andThen fun _ =>
  (getRemoved h r).andThen fun removed =>
  let host (n : Nat) : Bool := h.live n && !decide (n ∈ removed)
  let inner (n : Nat) : Bool := r.replacement.live n && decide (n ≠ r.replacement.entrypoint)
  (checkEach (fun e => (ensure (host e.src) (.badEdgeSpec .outgoing .hostToRepl)).andThen fun _ =>
    checkSrc h .hostToRepl e) r.muInp).andThen fun _ =>
  (checkEach (fun e => (ensure (host e.src) (.badEdgeSpec .outgoing .hostToHost)).andThen fun _ =>
    checkSrc h .hostToHost e) r.muNew).andThen fun _ =>
  (checkEach (fun e => (ensure (inner e.src) (.badEdgeSpec .outgoing .replToHost)).andThen fun _ =>
    checkSrc r.replacement .replToHost e) r.muOut).andThen fun _ =>
  (checkEach (fun e => (ensure (inner e.tgt) (.badEdgeSpec .incoming .hostToRepl)).andThen fun _ =>
    checkTgt r.replacement .hostToRepl e) r.muInp).andThen fun _ =>
  (checkEach (fun e => (ensure (host e.tgt) (.badEdgeSpec .incoming .replToHost)).andThen fun _ =>
    (checkTgt h .replToHost e).andThen fun _ => checkExisting h removed .replToHost e) r.muOut).andThen fun _ =>
  checkEach (fun e => (ensure (host e.tgt) (.badEdgeSpec .incoming .hostToHost)).andThen fun _ =>
    (checkTgt h .hostToHost e).andThen fun _ => checkExisting h removed .hostToHost e) r.muNew

/-! ## Specification -/

/-- The nodes that are to be put somewhere else with what is in them. -/
def Replacement.adopted (r : Replacement Meta) : List Nat := r.adoptions.map Prod.snd

/-- What is removed: what is in the nodes to be removed, but not what is in an adopted node. -/
def Removes (h : Hugr Ops.Op Meta) (r : Replacement Meta) (x : Nat) : Prop :=
  (∃ s ∈ r.removal, Above h.hier.parent x s) ∧ ∀ v ∈ r.adopted, x ≠ v → ¬ Above h.hier.parent x v

/-- The source can have such an edge. For control flow the code does not look at which port it is, and
takes an exit block as well. -/
def SrcFits (h : Hugr Ops.Op Meta) (e : NewEdge) : Prop :=
  match e.kind with
  | .order => .stateOrder ∈ (h.ops e.src).ports .outgoing
  | .value s _ => ∃ t, ((h.ops e.src).ports .outgoing)[s]? = some (.value t)
  | .static s _ => ∃ k, ((h.ops e.src).ports .outgoing)[s]? = some k ∧ ((∃ t, k = .const t) ∨ ∃ f, k = .function f)
  | .controlFlow _ => (∃ a b c, h.ops e.src = .dataflowBlock a b c) ∨ ∃ a, h.ops e.src = .exitBlock a

/-- The target can have such an edge. -/
def TgtFits (h : Hugr Ops.Op Meta) (e : NewEdge) : Prop :=
  match e.kind with
  | .order => .stateOrder ∈ (h.ops e.tgt).ports .incoming
  | .value _ t => ∃ ty, ((h.ops e.tgt).ports .incoming)[t]? = some (.value ty)
  | .static _ t => ∃ k, ((h.ops e.tgt).ports .incoming)[t]? = some k ∧ ((∃ ty, k = .const ty) ∨ ∃ f, k = .function f)
  | .controlFlow _ => ((h.ops e.tgt).ports .incoming)[0]? = some .controlFlow

/-- A value or static edge takes the place of the only link to its port, which comes from what is removed or adopted. -/
def TakesPlace (h : Hugr Ops.Op Meta) (r : Replacement Meta) (e : NewEdge) : Prop :=
  match e.kind with
  | .value _ t | .static _ t => ∃ l s, linksTo h e.tgt t = [l] ∧ s ∈ r.removal ∧ Above h.hier.parent l.src s
  | _ => True

/-- What a replacement has to be like. -/
structure WellPosed (h : Hugr Ops.Op Meta) (r : Replacement Meta) : Prop where
  /-- The nodes to be removed are different children of one node, which is of the sort of the root of the replacement. -/
  siblings : ∃ p, r.removal ≠ [] ∧ (∀ n ∈ r.removal, h.hier.parent n = some p) ∧
    (h.ops p).opTag = (r.replacement.ops r.replacement.entrypoint).opTag
  once : r.removal.Nodup
  /-- Empty containers adopt. -/
  adopters : ∀ a ∈ r.adoptions, r.replacement.live a.1 = true ∧ Container (r.replacement.ops a.1) ∧
    r.replacement.children a.1 = []
  /-- No node is adopted twice; what is adopted would be removed, and is not inside something else that is adopted. -/
  adoptedOnce : r.adopted.Nodup
  adoptees : ∀ v ∈ r.adopted, (∃ s ∈ r.removal, Above h.hier.parent v s) ∧
    ∀ u ∈ r.adopted, u ≠ v → ¬ Above h.hier.parent v u
  inp : ∀ e ∈ r.muInp, (h.live e.src = true ∧ ¬ Removes h r e.src ∧ SrcFits h e) ∧
    r.replacement.live e.tgt = true ∧ e.tgt ≠ r.replacement.entrypoint ∧ TgtFits r.replacement e
  out : ∀ e ∈ r.muOut, (r.replacement.live e.src = true ∧ e.src ≠ r.replacement.entrypoint ∧ SrcFits r.replacement e) ∧
    h.live e.tgt = true ∧ ¬ Removes h r e.tgt ∧ TgtFits h e ∧ TakesPlace h r e
  new : ∀ e ∈ r.muNew, (h.live e.src = true ∧ ¬ Removes h r e.src ∧ SrcFits h e) ∧
    h.live e.tgt = true ∧ ¬ Removes h r e.tgt ∧ TgtFits h e ∧ TakesPlace h r e

end Verif.Patch
