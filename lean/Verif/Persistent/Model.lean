import Mathlib.Data.List.Dedup
import Mathlib.Tactic.Common

/-!
# Commits, state spaces and persistent HUGRs

The commit store of `hugr-persistent`. Not modelled: the graphs in the commits, dropping commits (a
commit lives as long as its state space), and `apply_all`.

The crate `relrc` is not part of the repository. It is modelled by its documented behaviour: a
commit is identified by its address, a registry gives every commit registered in it an identifier
of its own, `all_ancestors` lists a commit and its ancestors once each, and in a history graph
`insert_node` adds one commit and `children` lists the commits of the graph that have the given
commit as a parent.
-/
namespace Verif.Persistent

/-- A commit (hugr-persistent/src/commit.rs:62, hugr-persistent/src/state_space.rs:57-60). `space`
is the state space in which it is registered, `id` its identifier there. `deletes` is
`deleted_parent_nodes` (commit.rs:223-227): the nodes of the replaced subgraph, each with the
identifier of the commit that owns it. `io` is the input and output of the replacement graph.
`parents` are the addresses of the parents. -/
structure Rec where
  space : Nat
  id : Nat
  isBase : Bool
  deletes : List (Nat × Nat)
  io : List Nat
  parents : List Nat
deriving DecidableEq

/-- All the commits, in the order of creation. The address of a commit is its position. -/
abbrev World := List Rec

/-- The errors of these functions (hugr-persistent/src/commit.rs:385-425). -/
inductive Err
  | incompatibleHistory (id node : Nat)
  | unknownParent (id : Nat)
  | nonUniqueBase (n : Nat)
  | emptyReplacement
deriving DecidableEq

namespace World

variable (w : World)

/-- `Commit::parents` (hugr-persistent/src/commit.rs:171-177). -/
def parents (c : Nat) : List Nat := (w[c]?.map Rec.parents).getD []

/-- `Commit::deleted_parent_nodes` (hugr-persistent/src/commit.rs:223-227). -/
def deletes (c : Nat) : List (Nat × Nat) := (w[c]?.map Rec.deletes).getD []

/-- Whether the commit is a `CommitData::Base` (hugr-persistent/src/state_space.rs:57-60). -/
def isBase (c : Nat) : Bool := (w[c]?.map Rec.isBase).getD false

/-- `Commit::state_space` (hugr-persistent/src/commit.rs:156-161). -/
def space (c : Nat) : Nat := (w[c]?.map Rec.space).getD 0

/-- `Commit::id` (hugr-persistent/src/commit.rs:164-168). -/
def id (c : Nat) : Nat := (w[c]?.map Rec.id).getD 0

/-- `get_replacement_io` of the commit, empty for a base
(hugr-core/src/hugr/patch/simple_replace.rs:116-120). -/
def io (c : Nat) : List Nat := (w[c]?.map Rec.io).getD []

/-- The number of commits registered in a state space. -/
def count (s : Nat) : Nat := (List.filter (fun r : Rec => r.space == s) w).length

/-- `CommitStateSpace::try_upgrade` (hugr-persistent/src/state_space.rs:163-169). -/
def upgrade (s id : Nat) : Option Nat :=
  (List.range w.length).find? fun c => w.space c == s && w.id c == id

end World

/-- `Itertools::unique`: the first occurrences. -/
def unique (l : List Nat) : List Nat := l.reverse.dedup.reverse

/-- The loop `for commit in commit.parents()` of `get_ancestors_while`
(hugr-persistent/src/persistent_hugr.rs:471-475): the commits pushed and the set of seen ones. -/
def pushNew : List Nat → List Nat → List Nat × List Nat
  | seen, [] => ([], seen)
  | seen, p :: ps =>
    if p ∈ seen then pushNew seen ps
    else (p :: (pushNew (p :: seen) ps).1, (pushNew (p :: seen) ps).2)

/-- The loop `while ind < all_commits.len()` of `get_ancestors_while`
(hugr-persistent/src/persistent_hugr.rs:463-477): the commits from `ind` on, and the set of seen
ones. `fuel` bounds the number of rounds. -/
def ancestorsLoop (w : World) (cont : Nat → Bool) :
    Nat → List Nat → List Nat → List Nat × List Nat
  | 0, seen, _ => ([], seen)
  | _, seen, [] => ([], seen)
  | fuel + 1, seen, c :: queue =>
    let pushed := pushNew seen (if cont c then w.parents c else [])
    let rest := ancestorsLoop w cont fuel pushed.2 (queue ++ pushed.1)
    (c :: rest.1, rest.2)

/-- The loop `for commit in commits` of `get_ancestors_while`
(hugr-persistent/src/persistent_hugr.rs:455-479). `rotate_right` puts what was found from the last
commit before everything else. -/
def ancestorsFrom (w : World) (cont : Nat → Bool) : List Nat → List Nat → List Nat → List Nat
  | _, all, [] => all
  | seen, all, c :: cs =>
    if c ∈ seen then ancestorsFrom w cont seen all cs
    else
      let r := ancestorsLoop w cont (w.length + 1) (c :: seen) [c]
      ancestorsFrom w cont r.2 (r.1 ++ all) cs

/-- `get_ancestors_while` (hugr-persistent/src/persistent_hugr.rs:447-482). -/
def getAncestorsWhile (w : World) (cont : Nat → Bool) (commits : List Nat) : List Nat :=
  ancestorsFrom w cont [] [] commits

/-- `new_invalidated.find(|&n| !all_invalidated.insert(n))` in `find_conflicting_node`
(hugr-persistent/src/persistent_hugr.rs:568): the first node inserted before, and the set. -/
def insertAll : List Nat → List Nat → Option Nat × List Nat
  | set, [] => (none, set)
  | set, n :: ns => if n ∈ set then (some n, set) else insertAll (n :: set) ns

/-- The nodes of the commit with the identifier `id` that `child` deletes
(hugr-persistent/src/persistent_hugr.rs:562-567). -/
def deletedIn (w : World) (id child : Nat) : List Nat :=
  (w.deletes child).filterMap fun d => if d.1 = id then some d.2 else none

/-- The `find_map` of `find_conflicting_node` (hugr-persistent/src/persistent_hugr.rs:561-569). -/
def conflictFrom (w : World) (id : Nat) : List Nat → List Nat → Option Nat
  | _, [] => none
  | set, child :: rest =>
    match insertAll set (deletedIn w id child) with
    | (some n, _) => some n
    | (none, set') => conflictFrom w id set' rest

/-- `find_conflicting_node` (hugr-persistent/src/persistent_hugr.rs:555-570). -/
def findConflictingNode (w : World) (id : Nat) (children : List Nat) : Option Nat :=
  conflictFrom w id [] children

/-- `CommitStateSpace::try_set_base` and `Commit::new_base`
(hugr-persistent/src/state_space.rs:137-142, hugr-persistent/src/commit.rs:95-102). -/
def trySetBase (w : World) (s : Nat) : Option World :=
  if w.count s = 0 then some (w ++ [⟨s, 0, true, [], [], []⟩]) else none

/-- `get_parent_commits` (hugr-persistent/src/commit.rs:427-439): the owners of the deleted nodes,
looked up in the state space. -/
def getParentCommits (w : World) (s : Nat) : List Nat → Except Err (List Nat)
  | [] => .ok []
  | id :: ids =>
    match w.upgrade s id with
    | none => .error (.unknownParent id)
    | some c =>
      match getParentCommits w s ids with
      | .error e => .error e
      | .ok cs => .ok (c :: cs)

/-- `get_base_ancestors` of a commit that is not a base and has the given parents
(hugr-persistent/src/commit.rs:364-367). -/
def baseAncestors (w : World) (parents : List Nat) : List Nat :=
  (getAncestorsWhile w (fun _ => true) parents).filter w.isBase

/-- The parents of a new commit: the given ones, then the owners of the deleted nodes, without
repetitions (hugr-persistent/src/commit.rs:127-134). -/
def allParents (explicit owners : List Nat) : List Nat := unique (explicit ++ owners)

/-- `Commit::try_new` (hugr-persistent/src/commit.rs:118-146). The result is the new store; the new
commit is at its end. -/
def tryCommit (w : World) (s : Nat) (deletes : List (Nat × Nat)) (io explicit : List Nat) :
    Except Err World :=
  if deletes = [] then .error .emptyReplacement
  else
    match getParentCommits w s (unique (deletes.map Prod.fst)) with
    | .error e => .error e
    | .ok owners =>
      let bases := baseAncestors w (allParents explicit owners)
      if bases.length = 1 then
        .ok (w ++ [⟨s, w.count s, false, deletes, io, allParents explicit owners⟩])
      else .error (.nonUniqueBase bases.length)

/-- `PersistentHugr` (hugr-persistent/src/persistent_hugr.rs:64-85): the commits of the history
graph, its state space, the base commit, and the cached lists of children. -/
structure PHugr where
  members : List Nat
  space : Nat
  base : Nat
  cache : List (Nat × List Nat)
deriving DecidableEq

/-- `HistoryGraph::children`: the commits of the graph that have `c` as a parent. -/
def graphChildren (w : World) (members : List Nat) (c : Nat) : List Nat :=
  members.filter fun d => c ∈ w.parents d

/-- The loop of `try_new` (hugr-persistent/src/persistent_hugr.rs:125-140). The set
`all_commit_ids` is `all`. -/
def tryNewLoop (w : World) (s : Nat) (all : List Nat) : List Nat → Except Err Unit
  | [] => .ok ()
  | c :: cs =>
    if w.space c ≠ s then .error (.nonUniqueBase 2)
    else
      match findConflictingNode w (w.id c)
          ((graphChildren w (List.range w.length) c).filter fun d => d ∈ all) with
      | some n => .error (.incompatibleHistory (w.id c) n)
      | none => tryNewLoop w s all cs

/-- `PersistentHugr::try_new` (hugr-persistent/src/persistent_hugr.rs:114-158). -/
def tryNew (w : World) (commits : List Nat) : Except Err PHugr :=
  match getAncestorsWhile w (fun _ => true) commits with
  | [] => .error (.nonUniqueBase 0)
  | front :: rest =>
    let all := front :: rest
    match tryNewLoop w (w.space front) all all with
    | .error e => .error e
    | .ok () =>
      match all.filter w.isBase with
      | [b] => .ok ⟨all, w.space front, b, []⟩
      | bs => .error (.nonUniqueBase bs.length)

/-- `children_or_insert` (hugr-persistent/src/persistent_hugr/cache.rs:24-30) as called by
`children_commits` (hugr-persistent/src/persistent_hugr.rs:348-354): the children and the cache
afterwards. -/
def PHugr.children (w : World) (h : PHugr) (c : Nat) : List Nat × PHugr :=
  match h.cache.lookup c with
  | some cs => (cs, h)
  | none =>
    let cs := graphChildren w h.members c
    (cs, { h with cache := (c, cs) :: h.cache })

/-- `graph.insert_node` and the invalidation of the cache in `try_add_commits`
(hugr-persistent/src/persistent_hugr.rs:259-264). -/
def PHugr.insert (w : World) (h : PHugr) (c : Nat) : PHugr :=
  { h with
    members := if c ∈ h.members then h.members else h.members ++ [c]
    cache := h.cache.filter fun e => e.1 ∉ w.parents c }

/-- The loop of `try_add_commits` (hugr-persistent/src/persistent_hugr.rs:235-265) over the commits
still to do; `new` is `new_commits`. The persistent HUGR is returned in either case. -/
def tryAddLoop (w : World) (new : List Nat) : List Nat → PHugr → PHugr × Option Err
  | [], h => (h, none)
  | c :: cs, h =>
    if w.space c ≠ h.space then (h, some (.nonUniqueBase 2))
    else
      let r := h.children w c
      let children := unique (r.1 ++ new.filter fun d => c ∈ w.parents d)
      match findConflictingNode w (w.id c) children with
      | some n => (r.2, some (.incompatibleHistory (w.id c) n))
      | none => tryAddLoop w new cs (r.2.insert w c)

/-- `PersistentHugr::try_add_commits` (hugr-persistent/src/persistent_hugr.rs:229-268). -/
def tryAddCommits (w : World) (h : PHugr) (commits : List Nat) : PHugr × Option Err :=
  let new := getAncestorsWhile w (fun c => c ∉ h.members) commits
  tryAddLoop w new new.reverse h

/-- `PersistentHugr::deleted_nodes` (hugr-persistent/src/persistent_hugr.rs:421-427), for the commit
with the identifier `id`. The identifier of a commit that is not in the state space has no
children. -/
def deletedNodes (w : World) (h : PHugr) (id : Nat) : List Nat × PHugr :=
  match w.upgrade h.space id with
  | none => ([], h)
  | some c =>
    let r := h.children w c
    (r.1.flatMap (deletedIn w id), r.2)

/-- The check of `try_add_replacement` (hugr-persistent/src/persistent_hugr.rs:190-203). The parents
are visited in the order of their first occurrence; in the code the order is that of a hash map. -/
def checkSiblings (w : World) (deletes : List (Nat × Nat)) :
    List Nat → PHugr → PHugr × Option Err
  | [], h => (h, none)
  | id :: ids, h =>
    let r := deletedNodes w h id
    match r.1.find? fun n => (id, n) ∈ deletes with
    | some n => (r.2, some (.incompatibleHistory id n))
    | none => checkSiblings w deletes ids r.2

/-- `PersistentHugr::try_add_replacement` (hugr-persistent/src/persistent_hugr.rs:184-211). On
success the new commit is at the end of the store. -/
def tryAddReplacement (w : World) (h : PHugr) (deletes : List (Nat × Nat)) (io : List Nat) :
    World × PHugr × Option Err :=
  match checkSiblings w deletes (unique (deletes.map Prod.fst)) h with
  | (h1, some e) => (w, h1, some e)
  | (h1, none) =>
    match tryCommit w h1.space deletes io [] with
    | .error e => (w, h1, some e)
    | .ok w' =>
      let r := tryAddCommits w' h1 [w.length]
      (w', r.1, r.2)

/-- `PersistentHugr::contains_node` (hugr-persistent/src/persistent_hugr.rs:431-440). -/
def containsNode (w : World) (h : PHugr) (id node : Nat) : Bool :=
  match w.upgrade h.space id with
  | none => false
  | some c =>
    (c ∈ h.members) && !(node ∈ w.io c) && !(node ∈ (deletedNodes w h id).1)

/-- `NodeStatus` (hugr-persistent/src/persistent_hugr.rs:487-497). -/
inductive NodeStatus
  | deleted (child : Nat)
  | replacementIO
  | valid
deriving DecidableEq

/-- `find_deleting_commit` (hugr-persistent/src/persistent_hugr.rs:507-516). -/
def findDeletingCommit (w : World) (h : PHugr) (c node : Nat) : Option Nat :=
  (h.children w c).1.find? fun d => (w.id c, node) ∈ w.deletes d

/-- `node_status` (hugr-persistent/src/persistent_hugr.rs:520-537). -/
def nodeStatus (w : World) (h : PHugr) (c node : Nat) : NodeStatus :=
  if node ∈ w.io c then .replacementIO
  else
    match findDeletingCommit w h c node with
    | some d => .deleted d
    | none => .valid

/-- `PersistentHugr::is_valid` (hugr-persistent/src/persistent_hugr.rs:271-294), over the commits
still to do. -/
def isValidLoop (w : World) : List Nat → Bool → PHugr → Except Err Unit
  | [], foundBase, _ => if foundBase then .ok () else .error (.nonUniqueBase 0)
  | c :: cs, foundBase, h =>
    if w.isBase c && c ≠ h.base then .error (.nonUniqueBase 2)
    else
      let r := h.children w c
      match findConflictingNode w (w.id c) r.1 with
      | some n => .error (.incompatibleHistory (w.id c) n)
      | none => isValidLoop w cs (foundBase || w.isBase c) r.2

/-- `PersistentHugr::is_valid` (hugr-persistent/src/persistent_hugr.rs:271-294). -/
def isValid (w : World) (h : PHugr) : Except Err Unit := isValidLoop w h.members false h

/-- A call of the public interface. Persistent HUGRs are named by their position in the list of
those made so far. -/
inductive Cmd
  /-- `PersistentHugr::with_base` or `CommitStateSpace::try_set_base` in the given state space. -/
  | setBase (space : Nat)
  /-- `Commit::try_new`. -/
  | commit (space : Nat) (deletes : List (Nat × Nat)) (io explicit : List Nat)
  /-- `PersistentHugr::try_new`. -/
  | create (commits : List Nat)
  /-- `PersistentHugr::clone`. -/
  | clone (h : Nat)
  /-- `PersistentHugr::try_add_commits`. -/
  | addCommits (h : Nat) (commits : List Nat)
  /-- `PersistentHugr::try_add_replacement`. -/
  | addReplacement (h : Nat) (deletes : List (Nat × Nat)) (io : List Nat)
  /-- `PersistentHugr::children_commits`, which fills the cache. -/
  | lookChildren (h : Nat) (c : Nat)

/-- The commits and the persistent HUGRs made so far. -/
structure State where
  world : World
  hugrs : List PHugr
deriving DecidableEq

/-- A successful call; `none` if the call fails or the arguments do not exist. The given commits
must exist, and a subgraph does not list a node twice
(hugr-core/src/hugr/views/sibling_subgraph.rs:769-772). -/
def step (st : State) : Cmd → Option State
  | .setBase s =>
    match trySetBase st.world s with
    | none => none
    | some w => some ⟨w, st.hugrs⟩
  | .commit s deletes io explicit =>
    if (∀ c ∈ explicit, c < st.world.length) ∧ deletes.Nodup then
      match tryCommit st.world s deletes io explicit with
      | .error _ => none
      | .ok w => some ⟨w, st.hugrs⟩
    else none
  | .create commits =>
    if ∀ c ∈ commits, c < st.world.length then
      match tryNew st.world commits with
      | .error _ => none
      | .ok h => some ⟨st.world, st.hugrs ++ [h]⟩
    else none
  | .clone i =>
    match st.hugrs[i]? with
    | none => none
    | some h => some ⟨st.world, st.hugrs ++ [h]⟩
  | .addCommits i commits =>
    if ∀ c ∈ commits, c < st.world.length then
      match st.hugrs[i]? with
      | none => none
      | some h =>
        match tryAddCommits st.world h commits with
        | (_, some _) => none
        | (h', none) => some ⟨st.world, st.hugrs.set i h'⟩
    else none
  | .addReplacement i deletes io =>
    if deletes.Nodup then
      match st.hugrs[i]? with
      | none => none
      | some h =>
        match tryAddReplacement st.world h deletes io with
        | (_, _, some _) => none
        | (w, h', none) => some ⟨w, st.hugrs.set i h'⟩
    else none
  | .lookChildren i c =>
    match st.hugrs[i]? with
    | none => none
    | some h => some ⟨st.world, st.hugrs.set i (h.children st.world c).2⟩

/-- A sequence of successful calls. -/
def run : State → List Cmd → Option State
  | st, [] => some st
  | st, c :: cs =>
    match step st c with
    | none => none
    | some st' => run st' cs

/-- Nothing made yet. -/
def start : State := ⟨[], []⟩

end Verif.Persistent
