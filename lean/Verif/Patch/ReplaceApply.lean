import Verif.Patch.Replacement

/-!
# Model of applying a replacement

Source: `/repo/hugr-core/src/hugr/patch/replace.rs`: `apply_hugr_mut` of `Replacement`. Assertions that are made in
debug builds only are modelled.
-/
namespace Verif.Patch

open Verif.Graph Verif.Ops Verif.Passes Verif.Validate

variable {Meta : Type}

/-- `ok_or_else(..)?` -/
def Vet.orErr {α : Type} (e : ReplaceError) : Option α → Vet α
  | some a => .ok a
  | none => .err e

/-- A panic where there is no result. -/
def Vet.orPanic {α : Type} : Option α → Vet α
  | some a => .ok a
  | none => .panic

/-- A loop that changes something and may fail. -/
def vetEach {G α : Type} (f : G → α → Vet G) : G → List α → Vet G
  | g, [] => .ok g
  | g, a :: as => (f g a).andThen fun g' => vetEach f g' as

/-- The end of a round of `transfer_edges`, replace.rs:457-469. `legal` is `none` for edges into the replacement. -/
def placeEdge (h : Hugr Ops.Op Meta) (which : WhichEdge) (legal : Option (List Nat)) (e : NewEdge) :
    Vet (Hugr Ops.Op Meta) :=
  match e.kind with
  | .order => Vet.orPanic (addOtherEdge h e.src e.tgt)
  | .value s t | .static s t =>
    match legal with
    | none => Vet.orPanic (h.connect ⟨e.src, s, e.tgt, t⟩)
    | some legal =>
      (checkExisting h legal which e).andThen fun _ =>
      (Vet.orPanic (h.disconnect e.tgt .incoming t)).andThen fun h1 =>
      Vet.orPanic (h1.connect ⟨e.src, s, e.tgt, t⟩)
  | .controlFlow s => Vet.orPanic (h.connect ⟨e.src, s, e.tgt, 0⟩)

/-- One round of `transfer_edges` after the nodes are translated, replace.rs:442-469. -/
def transferTo (h : Hugr Ops.Op Meta) (which : WhichEdge) (legal : Option (List Nat)) (e : NewEdge) :
    Vet (Hugr Ops.Op Meta) :=
  (ensure (h.live e.src) (.badEdgeSpec .outgoing which)).andThen fun _ =>
  (ensure (h.live e.tgt) (.badEdgeSpec .incoming which)).andThen fun _ =>
  (checkSrc h which e).andThen fun _ =>
  (checkTgt h which e).andThen fun _ => placeEdge h which legal e

/-- One round of `transfer_edges`, replace.rs:433-469. -/
def transferEdge (which : WhichEdge) (tsrc ttgt : Nat → Option Nat) (legal : Option (List Nat))
    (h : Hugr Ops.Op Meta) (e : NewEdge) : Vet (Hugr Ops.Op Meta) :=
  (Vet.orErr (.badEdgeSpec .outgoing which) (tsrc e.src)).andThen fun src =>
  (Vet.orErr (.badEdgeSpec .incoming which) (ttgt e.tgt)).andThen fun tgt =>
  transferTo h which legal ⟨src, tgt, e.kind⟩

/-- Step 5, the loop of replace.rs:392-398. -/
def placeNew (parent : Nat) : Hugr Ops.Op Meta → List Nat → List Nat → Option (Hugr Ops.Op Meta)
  | h, [], _ => some h
  | h, n :: ns, [] =>
    match h.setParent n parent with
    | none => none
    | some h1 => placeNew parent h1 ns []
  | h, n :: ns, s :: ss =>
    match h.moveBeforeSibling n s with
    | none => none
    | some h1 => placeNew parent h1 ns ss

/-- Step 6 for one adoption, replace.rs:403-409. Simplification: the children are taken as they are at the start, the
code takes the first that is left each time. -/
def adopt (map : List (Nat × Nat)) (h : Hugr Ops.Op Meta) (a : Nat × Nat) : Option (Hugr Ops.Op Meta) :=
  match map.lookup a.1 with
  | none => none
  | some new => if h.children a.2 = [] then none else each (fun g c => g.setParent c new) h (h.children a.2)

/-- `apply_hugr_mut`, replace.rs:337-416. `news` are the indices of the new nodes and `order` is the order in which the
set of removed nodes is iterated. -/
def Replacement.apply (h : Hugr Ops.Op Meta) (r : Replacement Meta) (news : List Nat) (order : List Nat → List Nat) :
    Vet (Hugr Ops.Op Meta × List (Nat × Nat)) :=
  (checkParent h r).andThen fun parent =>
  (getRemoved h r).andThen fun removed =>
  match h.insertRegion opsInfo.toOpInfo parent r.replacement r.replacement.entrypoint news with
  | .done h1 map =>
    let kept (n : Nat) : Option Nat := if n ∈ removed then none else some n
    (vetEach (transferEdge .hostToRepl kept (fun n => map.lookup n) none) h1 r.muInp).andThen fun h2 =>
    (vetEach (transferEdge .replToHost (fun n => map.lookup n) kept (some removed)) h2 r.muOut).andThen fun h3 =>
    (vetEach (transferEdge .hostToHost kept kept (some removed)) h3 r.muNew).andThen fun h4 =>
    (Vet.orPanic (map.lookup r.replacement.entrypoint)).andThen fun top =>
    (Vet.orPanic (placeNew parent h4 (h4.children top) r.removal)).andThen fun h5 =>
    (Vet.orPanic (if h5.children top = [] then h5.removeNode opsInfo.toOpInfo top else none)).andThen fun h6 =>
    (Vet.orPanic (each (adopt map) h6 r.adoptions)).andThen fun h7 =>
    (Vet.orPanic (each (fun g n => g.removeNode opsInfo.toOpInfo n) h7 (order removed))).andThen fun h8 =>
    .ok (h8, map)
  | _ => .panic

end Verif.Patch
