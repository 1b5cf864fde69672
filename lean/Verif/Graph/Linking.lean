import Verif.Graph.Insert

/-!
# Model of inserting one Hugr into another and linking them

Source: `/repo/hugr-core/src/hugr/linking.rs`.

A `HashMap` is modelled by the list of its entries, in the order of its iteration; nothing is assumed
of that order. The entries of the two maps of `Transfers` are iterated once each, in an order that
has nothing to do with the order of insertion: the model is given these orders.
-/
namespace Verif.Graph

variable {Op Meta : Type}

/-- `NodeLinkingDirective`, linking.rs:137-166. -/
inductive Directive where
  | add (replace : List Nat)
  | useExisting (target : Nat)
deriving DecidableEq, Repr

/-- `NodeLinkingError`, linking.rs:116-135. -/
inductive LinkError where
  | childOfEntrypoint (sn : Nat)
  | childContainsEntrypoint (sn : Nat)
  | notChildOfRoot (sn : Nat)
  | nodeMultiplyReplaced (tn sn sn' : Nat)
deriving DecidableEq, Repr

/-- `Transfers`, linking.rs:196-199: from source to target nodes, and from target to source nodes. -/
structure Transfers where
  useExisting : List (Nat × Nat)
  replace : List (Nat × Nat)
deriving DecidableEq, Repr

/-- `matches!(_, Some(NodeLinkingDirective::Add { .. }))`. -/
def Directive.isAdd : Option Directive → Bool
  | some (.add _) => true
  | _ => false

/-- The loop of linking.rs:223-228: the first proper ancestor that is to be added. `fuel` bounds the
height. -/
def addedAncestor (other : Hugr Op Meta) (children : List (Nat × Directive)) : Nat → Nat → Option Nat
  | 0, _ => none
  | fuel + 1, n =>
    match other.getParent n with
    | none => none
    | some p =>
      if Directive.isAdd (children.lookup p) then some p else addedAncestor other children fuel p

/-- The checks of the entrypoint, linking.rs:206-230. -/
def checkEntrypoint (other : Hugr Op Meta) (children : List (Nat × Directive)) : Option LinkError :=
  if other.entrypoint = other.moduleRoot then
    match children with
    | [] => none
    | c :: _ => some (.childOfEntrypoint c.1)
  else if (children.lookup other.entrypoint).isSome then
    some (.childContainsEntrypoint other.entrypoint)
  else (addedAncestor other children (other.cap + 1) other.entrypoint).map .childContainsEntrypoint

/-- The loop over the nodes to replace, linking.rs:241-245. -/
def addReplaces (sn : Nat) : List Nat → List (Nat × Nat) → Except LinkError (List (Nat × Nat))
  | [], rep => .ok rep
  | r :: rs, rep =>
    match rep.lookup r with
    | some old => .error (.nodeMultiplyReplaced r old sn)
    | none => addReplaces sn rs ((r, sn) :: rep)

/-- The loop over the directives, linking.rs:235-251. -/
def collectTransfers (other : Hugr Op Meta) :
    List (Nat × Directive) → Transfers → Except LinkError Transfers
  | [], t => .ok t
  | (sn, d) :: rest, t =>
    if other.getParent sn = some other.moduleRoot then
      match d with
      | .add replace =>
        match addReplaces sn replace t.replace with
        | .error e => .error e
        | .ok rep => collectTransfers other rest { t with replace := rep }
      | .useExisting tn => collectTransfers other rest { t with useExisting := (sn, tn) :: t.useExisting }
    else .error (.notChildOfRoot sn)

/-- `check_directives`, linking.rs:201-253. -/
def checkDirectives (other : Hugr Op Meta) (parent : Option Nat) (children : List (Nat × Directive)) :
    Except LinkError Transfers :=
  match (if parent.isSome then checkEntrypoint other children else none) with
  | some e => .error e
  | none => collectTransfers other children ⟨[], []⟩

/-- The loop of `replace_static_src`, linking.rs:277-282. `single_linked_output(..).unwrap()` panics
unless there is exactly one link. The assertion of line 279 cannot fail: a target whose link was moved
before would have had two links. -/
def rewire (new : Nat) : Hugr Op Meta → List (Nat × Nat) → Option (Hugr Op Meta)
  | h, [] => some h
  | h, (target, port) :: rest =>
    match h.linkedOutputs target port with
    | [(_, outport)] =>
      match h.disconnect target .incoming port with
      | none => none
      | some h1 =>
        match h1.connect { src := new, srcPort := outport, dst := target, dstPort := port } with
        | none => none
        | some h2 => rewire new h2 rest
    | _ => none

/-- `all_linked_inputs`, views.rs. -/
def Hugr.allLinkedInputs (h : Hugr Op Meta) (n : Nat) : List (Nat × Nat) :=
  (List.range (h.outs n)).flatMap (h.linkedInputs n)

/-- `replace_static_src`, linking.rs:275-284. -/
def Hugr.replaceStaticSrc (I : OpInfo Op) (h : Hugr Op Meta) (old new : Nat) : Option (Hugr Op Meta) :=
  match rewire new h (h.allLinkedInputs old) with
  | none => none
  | some h1 => h1.removeSubtree I old

/-- `replace_static_src`, for each pair of an old and a new source. -/
def Hugr.replaceAll (I : OpInfo Op) : Hugr Op Meta → List (Nat × Nat) → Option (Hugr Op Meta)
  | h, [] => some h
  | h, (old, new) :: rest =>
    match h.replaceStaticSrc I old new with
    | none => none
    | some h1 => Hugr.replaceAll I h1 rest

/-- Looking up each first component in the map; `none` (`unwrap`) if one is missing. -/
def resolveAll (map : List (Nat × Nat)) : List (Nat × Nat) → Option (List (Nat × Nat))
  | [] => some []
  | (sn, tn) :: rest =>
    match map.lookup sn, resolveAll map rest with
    | some n, some r => some ((n, tn) :: r)
    | _, _ => none

/-- `link_by_node`, linking.rs:255-273. The first loop removes each source node of `use_existing` from
the map; no source node is in both maps, and each is once in `use_existing`, so that all the copies are
looked up before the removals here. -/
def linkByNode (I : OpInfo Op) (h : Hugr Op Meta) (t : Transfers) (map : List (Nat × Nat)) :
    Option (Hugr Op Meta × List (Nat × Nat)) :=
  match resolveAll map t.useExisting with
  | none => none
  | some uses =>
    match h.replaceAll I uses with
    | none => none
    | some h1 =>
      let map1 := map.filter fun e => (t.useExisting.lookup e.1).isNone
      match resolveAll map1 (t.replace.map Prod.swap) with
      | none => none
      | some reps =>
        match h1.replaceAll I (reps.map Prod.swap) with
        | none => none
        | some h2 => some (h2, map1)

/-- The outcome of a linking insertion. The host is changed in place, so that it is also returned
with an error. -/
inductive LinkResult (Op Meta : Type) where
  | panic
  | error (e : LinkError) (host : Hugr Op Meta)
  | done (host : Hugr Op Meta) (map : List (Nat × Nat))

/-- The nodes of `other` that are copied, linking.rs:43-50. -/
def linkNodes (other : Hugr Op Meta) (parent : Option Nat) (children : List (Nat × Directive)) :
    List Nat :=
  (if parent.isSome then other.descendants other.entrypoint else []) ++
  children.flatMap fun c => match c.2 with
    | .add _ => other.descendants c.1
    | .useExisting _ => [c.1]

/-- The roots of the copied regions with their new parents, linking.rs:51-57. -/
def linkRoots (host other : Hugr Op Meta) (parent : Option Nat) (children : List (Nat × Directive)) :
    List (Nat × Nat) :=
  (match parent with
   | some p => [(other.entrypoint, p)]
   | none => []) ++ children.map fun c => (c.1, host.moduleRoot)

/-- `insert_link_view_by_node`, linking.rs:35-63. `roots` is the order in which the map of the roots
is iterated, `news` are the indices `add_node` returns, and `order` gives the order in which the
transfers are iterated. -/
def Hugr.insertLinkView (I : OpInfo Op) (host other : Hugr Op Meta) (parent : Option Nat)
    (children : List (Nat × Directive)) (roots : List (Nat × Nat)) (news : List Nat)
    (order : Transfers → Transfers) : LinkResult Op Meta :=
  match checkDirectives other parent children with
  | .error e => .error e host
  | .ok t =>
    match host.insertViewForest I other ((linkNodes other parent children).zip news) roots with
    | .done h map =>
      match linkByNode I h (order t) map with
      | some (h', map') => .done h' map'
      | none => .panic
    | _ => .panic

/-- The loop of linking.rs:95-99, as often as the node has children. -/
def removeChildren (I : OpInfo Op) (other : Hugr Op Meta) (n : Nat) : Nat → Option (Hugr Op Meta)
  | 0 => some other
  | k + 1 =>
    match other.children n with
    | [] => some other
    | c :: _ =>
      match other.removeNode I c with
      | none => none
      | some o => removeChildren I o n k

/-- The loop of linking.rs:91-101: the children of nodes that are not to be added are removed. -/
def pruneUsed (I : OpInfo Op) : Hugr Op Meta → List (Nat × Directive) → Option (Hugr Op Meta)
  | other, [] => some other
  | other, (_, .add _) :: rest => pruneUsed I other rest
  | other, (ch, .useExisting _) :: rest =>
    match removeChildren I other ch (other.children ch).length with
    | none => none
    | some o => pruneUsed I o rest

/-- `insert_link_hugr_by_node`, linking.rs:80-107. -/
def Hugr.insertLinkHugr (I : OpInfo Op) (host other : Hugr Op Meta) (parent : Option Nat)
    (children : List (Nat × Directive)) (roots : List (Nat × Nat)) (news : List Nat)
    (order : Transfers → Transfers) : LinkResult Op Meta :=
  match checkDirectives other parent children with
  | .error e => .error e host
  | .ok t =>
    match (if parent.isSome then other.setParent other.entrypoint other.moduleRoot else some other) with
    | none => .panic
    | some o1 =>
      match pruneUsed I o1 children with
      | none => .panic
      | some o2 =>
        match host.insertForest I o2 roots news with
        | .done h map =>
          match linkByNode I h (order t) map with
          | some (h', map') => .done h' map'
          | none => .panic
        | _ => .panic

end Verif.Graph
