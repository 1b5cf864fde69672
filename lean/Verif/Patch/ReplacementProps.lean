import Verif.Patch.ReplacementLemmas
import Verif.Patch.MoveOutFindings

/-!
# C77: what a replacement has to be like
-/
namespace Verif.Patch

open Verif.Graph Verif.Ops Verif.Passes Verif.Validate Verif.Dataflow

variable {Meta : Type} {h : Hugr Ops.Op Meta} {r : Replacement Meta}

theorem Vet.ok_andThen {α β : Type} (a : α) (f : α → Vet β) : (Vet.ok a).andThen f = f a := rfl

/-- C77: a replacement is accepted just if it is as described: the nodes to be removed are different children of one
node of the sort of the replacement's root; empty containers adopt different nodes that would be removed and are not
inside each other; the edges are between nodes that stay and nodes of the replacement, at ports of their kind, and a
value or static edge into a node that stays takes the place of the only link there, which comes from what is taken out.
Partial: for control-flow edges it is not checked that the source port exists (see the findings). -/
theorem C77_accepted_partial (ht : IsTree h) (hh : ∀ n, h.live n = true → (h.ops n).tagOk = true)
    (hr : ∀ n, r.replacement.live n = true → (r.replacement.ops n).tagOk = true) :
    r.verify h = .ok () ↔ WellPosed h r := by
  have hostOk : ∀ {R : List Nat} {n : Nat}, (∀ x, x ∈ R ↔ Removes h r x) →
      ((h.live n && !decide (n ∈ R)) = true ↔ h.live n = true ∧ ¬ Removes h r n) := by
    intro R n hR
    rw [Bool.and_eq_true, Bool.not_eq_true', decide_eq_false_iff_not, hR]
  have innerOk : ∀ {n : Nat}, ((r.replacement.live n && decide (n ≠ r.replacement.entrypoint)) = true ↔
      r.replacement.live n = true ∧ n ≠ r.replacement.entrypoint) := by
    intro n
    rw [Bool.and_eq_true, decide_eq_true_iff]
  have body : ∀ (R : List Nat) (p : Nat), (∀ x, x ∈ R ↔ Removes h r x) → (∀ n ∈ r.removal, h.hier.parent n = some p) →
      AdopteesOk h r → (((checkParent h r).andThen fun _ => (getRemoved h r).andThen fun _ => .ok ()) = .ok () →
      getRemoved h r = .ok R → (r.verify h = .ok () ↔
        (∀ e ∈ r.muInp, (h.live e.src = true ∧ ¬ Removes h r e.src) ∧ SrcFits h e) ∧
        (∀ e ∈ r.muNew, (h.live e.src = true ∧ ¬ Removes h r e.src) ∧ SrcFits h e) ∧
        (∀ e ∈ r.muOut, (r.replacement.live e.src = true ∧ e.src ≠ r.replacement.entrypoint) ∧ SrcFits r.replacement e) ∧
        (∀ e ∈ r.muInp, (r.replacement.live e.tgt = true ∧ e.tgt ≠ r.replacement.entrypoint) ∧ TgtFits r.replacement e) ∧
        (∀ e ∈ r.muOut, (h.live e.tgt = true ∧ ¬ Removes h r e.tgt) ∧ TgtFits h e ∧ TakesPlace h r e) ∧
        (∀ e ∈ r.muNew, (h.live e.tgt = true ∧ ¬ Removes h r e.tgt) ∧ TgtFits h e ∧ TakesPlace h r e))) := by
    intro R p hR hs hok hpre hget
    obtain ⟨p', hp', _⟩ := Vet.andThen_ok.1 hpre
    unfold Replacement.verify
    rw [hp', hget]
    rw [Vet.ok_andThen, Vet.ok_andThen]
    rw [Vet.unit_ok, Vet.unit_ok, Vet.unit_ok, Vet.unit_ok, Vet.unit_ok]
    simp only [checkEach_ok]
    refine and_congr (forall₂_congr fun e _ => ?_) (and_congr (forall₂_congr fun e _ => ?_)
      (and_congr (forall₂_congr fun e _ => ?_) (and_congr (forall₂_congr fun e _ => ?_)
        (and_congr (forall₂_congr fun e _ => ?_) (forall₂_congr fun e _ => ?_)))))
    · rw [Vet.unit_ok, ensure_ok, hostOk hR]
      exact and_congr_right fun hl => checkSrc_ok (hh _ hl.1)
    · rw [Vet.unit_ok, ensure_ok, hostOk hR]
      exact and_congr_right fun hl => checkSrc_ok (hh _ hl.1)
    · rw [Vet.unit_ok, ensure_ok, innerOk]
      exact and_congr_right fun hl => checkSrc_ok (hr _ hl.1)
    · rw [Vet.unit_ok, ensure_ok, innerOk]
      exact and_congr_right fun hl => checkTgt_ok (hr _ hl.1)
    · rw [Vet.unit_ok, ensure_ok, hostOk hR, Vet.unit_ok]
      exact and_congr_right fun hl => and_congr (checkTgt_ok (hh _ hl.1)) (checkExisting_ok ht hs hok hR)
    · rw [Vet.unit_ok, ensure_ok, hostOk hR, Vet.unit_ok]
      exact and_congr_right fun hl => and_congr (checkTgt_ok (hh _ hl.1)) (checkExisting_ok ht hs hok hR)
  constructor
  · intro e
    have e0 := e
    unfold Replacement.verify at e0
    obtain ⟨p, hp, e0⟩ := Vet.andThen_ok.1 e0
    obtain ⟨R, hR, e0⟩ := Vet.andThen_ok.1 e0
    obtain ⟨p1, p2, p3⟩ := (checkParent_ok ht).1 hp
    obtain ⟨g1, g2, g3, g4, g5⟩ := getRemoved_ok ht p2 R hR
    obtain ⟨b1, b2, b3, b4, b5, b6⟩ := (body R p g5 p2 g4 (Vet.andThen_ok.2 ⟨p, hp, Vet.andThen_ok.2 ⟨R, hR, rfl⟩⟩) hR).1 e
    exact { siblings := ⟨p, p1, p2, p3⟩, once := g1, adopters := g2, adoptedOnce := g3, adoptees := g4
            inp := fun e he => ⟨⟨(b1 e he).1.1, (b1 e he).1.2, (b1 e he).2⟩, (b4 e he).1.1, (b4 e he).1.2, (b4 e he).2⟩
            out := fun e he => ⟨⟨(b3 e he).1.1, (b3 e he).1.2, (b3 e he).2⟩, (b5 e he).1.1, (b5 e he).1.2, (b5 e he).2⟩
            new := fun e he => ⟨⟨(b2 e he).1.1, (b2 e he).1.2, (b2 e he).2⟩, (b6 e he).1.1, (b6 e he).1.2, (b6 e he).2⟩ }
  · intro w
    obtain ⟨p, p1, p2, p3⟩ := w.siblings
    have hp := (checkParent_ok ht).2 ⟨p1, p2, p3⟩
    obtain ⟨R, hR⟩ := getRemoved_of ht p2 w.once w.adopters w.adoptedOnce w.adoptees
    obtain ⟨_, _, _, _, g5⟩ := getRemoved_ok ht p2 R hR
    refine (body R p g5 p2 w.adoptees (Vet.andThen_ok.2 ⟨p, hp, Vet.andThen_ok.2 ⟨R, hR, rfl⟩⟩) hR).2 ⟨?_, ?_, ?_, ?_, ?_, ?_⟩
    · exact fun e he => ⟨⟨(w.inp e he).1.1, (w.inp e he).1.2.1⟩, (w.inp e he).1.2.2⟩
    · exact fun e he => ⟨⟨(w.new e he).1.1, (w.new e he).1.2.1⟩, (w.new e he).1.2.2⟩
    · exact fun e he => ⟨⟨(w.out e he).1.1, (w.out e he).1.2.1⟩, (w.out e he).1.2.2⟩
    · exact fun e he => ⟨⟨(w.inp e he).2.1, (w.inp e he).2.2.1⟩, (w.inp e he).2.2.2⟩
    · exact fun e he => ⟨⟨(w.out e he).2.1, (w.out e he).2.2.1⟩, (w.out e he).2.2.2⟩
    · exact fun e he => ⟨⟨(w.new e he).2.1, (w.new e he).2.2.1⟩, (w.new e he).2.2.2⟩

/-- C77: for an accepted replacement, what is removed is what is in the nodes to be removed and not in an adopted node. -/
theorem C77_removed_nodes (ht : IsTree h) (hok : r.verify h = .ok ()) :
    ∃ R, getRemoved h r = .ok R ∧ ∀ x, x ∈ R ↔ Removes h r x := by
  unfold Replacement.verify at hok
  obtain ⟨p, hp, e⟩ := Vet.andThen_ok.1 hok
  obtain ⟨R, hR, e⟩ := Vet.andThen_ok.1 e
  obtain ⟨p1, p2, p3⟩ := (checkParent_ok ht).1 hp
  exact ⟨R, hR, (getRemoved_ok ht p2 R hR).2.2.2.2⟩

theorem Vet.andThen_safe {α β : Type} {x : Vet α} {f : α → Vet β} (hx : x ≠ .panic) (hf : ∀ a, x = .ok a → f a ≠ .panic) :
    x.andThen f ≠ .panic := by
  cases x with
  | ok a => exact hf a rfl
  | err e => simp [Vet.andThen]
  | panic => exact absurd rfl hx

theorem checkEach_safe {α : Type} {f : α → Vet Unit} : ∀ {l : List α}, (∀ a ∈ l, f a ≠ .panic) → checkEach f l ≠ .panic
  | [], _ => by simp [checkEach]
  | a :: l, hf => Vet.andThen_safe (hf a List.mem_cons_self) fun _ _ =>
      checkEach_safe fun b hb => hf b (List.mem_cons_of_mem _ hb)

theorem ensure_safe {b : Bool} {e : ReplaceError} : ensure b e ≠ .panic := by
  unfold ensure
  split <;> simp

theorem kind_safe {f : Kind → Bool} {op : Ops.Op} (ht : op.tagOk = true) {dir : Ops.Dir} {i : Nat} :
    kindIs f (op.portKind dir i) ≠ .panic := by
  have : ∃ o, op.portKind dir i = .ok o := by
    by_cases hi : i < (op.ports dir).length
    · exact ⟨_, C10_port_kind op dir ht i hi⟩
    · exact ⟨_, C10_out_of_range_kind op dir ht i (by omega)⟩
  obtain ⟨o, ho⟩ := this
  rw [ho]
  cases o <;> simp [kindIs]

theorem checkSrc_safe {which : WhichEdge} {e : NewEdge} (ht : (h.ops e.src).tagOk = true) : checkSrc h which e ≠ .panic := by
  refine Vet.andThen_safe ?_ fun _ _ => ensure_safe
  cases e.kind with
  | order => simp [srcKindOk]
  | value s t => exact kind_safe ht
  | static s t => exact kind_safe ht
  | controlFlow s => exact kind_safe ht

theorem checkTgt_safe {which : WhichEdge} {e : NewEdge} (ht : (h.ops e.tgt).tagOk = true) : checkTgt h which e ≠ .panic := by
  refine Vet.andThen_safe ?_ fun _ _ => ensure_safe
  cases e.kind with
  | order => simp [tgtKindOk]
  | value s t => exact kind_safe ht
  | static s t => exact kind_safe ht
  | controlFlow s => exact kind_safe ht

theorem checkExisting_safe {R : List Nat} {which : WhichEdge} {e : NewEdge} : checkExisting h R which e ≠ .panic := by
  unfold checkExisting
  split
  · split
    · exact ensure_safe
    · simp
  · split
    · exact ensure_safe
    · simp
  · simp

/-- C77: the check of a replacement that does not list a node twice never panics, whatever else is wrong with it. -/
theorem C77_no_panic (ht : IsTree h) (hh : ∀ n, h.live n = true → (h.ops n).tagOk = true)
    (hr : ∀ n, r.replacement.live n = true → (r.replacement.ops n).tagOk = true) (hn : r.removal.Nodup) :
    r.verify h ≠ .panic := by
  unfold Replacement.verify
  refine Vet.andThen_safe ?_ fun p hp => Vet.andThen_safe ?_ fun R _ => ?_
  · unfold checkParent
    split
    · simp
    · split <;> simp
    · simp
  · obtain ⟨_, hs, _⟩ := (checkParent_ok ht).1 hp
    unfold getRemoved
    refine Vet.andThen_safe (checkEach_safe fun _ _ => ensure_safe) fun _ _ => Vet.andThen_safe ensure_safe fun _ e2 =>
      Vet.andThen_safe ?_ fun _ _ => Vet.andThen_safe ensure_safe fun _ _ => by simp
    obtain ⟨R', T', e', _⟩ := removedLoop_spec ht (h.cap + 1) r.removal r.adopted [] hn (siblings_apart ht hs)
      (of_decide_eq_true (ensure_ok.1 e2)) (fun n hn => (ht.parent_live n p (hs n hn)).1) List.nodup_nil (by simp) (by simp)
      (by simp)
    rw [show r.adoptions.map Prod.snd = r.adopted from rfl, e']
    simp
  · have hl : ∀ {n : Nat} {b : Bool} {e : ReplaceError}, ensure (h.live n && b) e = .ok () → h.live n = true :=
      fun e => (Bool.and_eq_true _ _ ▸ ensure_ok.1 e).1
    have il : ∀ {n : Nat} {b : Bool} {e : ReplaceError}, ensure (r.replacement.live n && b) e = .ok () →
        r.replacement.live n = true := fun e => (Bool.and_eq_true _ _ ▸ ensure_ok.1 e).1
    refine Vet.andThen_safe (checkEach_safe fun e _ => Vet.andThen_safe ensure_safe fun _ he => checkSrc_safe (hh _ (hl he)))
      fun _ _ => ?_
    refine Vet.andThen_safe (checkEach_safe fun e _ => Vet.andThen_safe ensure_safe fun _ he => checkSrc_safe (hh _ (hl he)))
      fun _ _ => ?_
    refine Vet.andThen_safe (checkEach_safe fun e _ => Vet.andThen_safe ensure_safe fun _ he => checkSrc_safe (hr _ (il he)))
      fun _ _ => ?_
    refine Vet.andThen_safe (checkEach_safe fun e _ => Vet.andThen_safe ensure_safe fun _ he => checkTgt_safe (hr _ (il he)))
      fun _ _ => ?_
    refine Vet.andThen_safe (checkEach_safe fun e _ => Vet.andThen_safe ensure_safe fun _ he =>
      Vet.andThen_safe (checkTgt_safe (hh _ (hl he))) fun _ _ => checkExisting_safe) fun _ _ => ?_
    exact checkEach_safe fun e _ => Vet.andThen_safe ensure_safe fun _ he =>
      Vet.andThen_safe (checkTgt_safe (hh _ (hl he))) fun _ _ => checkExisting_safe

/-! ## Examples -/

/-- The block 5 goes to 7, which goes to the exit. -/
def twoBlocksHistory : List (Cmd Ops.Op String) := mainHistory [bool] [bool] [[]]
  [ .addNodeWithParent 7 4 (.dataflowBlock [bool] [bool] [[]]),
    .addNodeWithParent 8 5 (.input [bool]), .addNodeWithParent 9 5 (.output [sumOf [[]], bool]),
    .addNodeWithParent 10 5 (.tag 0 [[]]),
    .addNodeWithParent 11 7 (.input [bool]), .addNodeWithParent 12 7 (.output [sumOf [[]], bool]),
    .addNodeWithParent 13 7 (.tag 0 [[]]),
    .connect ⟨5, 0, 7, 0⟩, .connect ⟨7, 0, 6, 0⟩, .connect ⟨10, 0, 9, 0⟩, .connect ⟨8, 0, 9, 1⟩,
    .connect ⟨13, 0, 12, 0⟩, .connect ⟨11, 0, 12, 1⟩ ]

/-- One block, 5, with two empty dataflow graphs, as `mk_rep` of normalize_cfgs.rs:341-447 makes it. -/
def oneBlockHistory : List (Cmd Ops.Op String) :=
  [ .addNodeWithParent 1 0 (.funcDefn "main" ⟨[], ⟨[bool], [bool]⟩⟩),
    .addNodeWithParent 2 1 (.input [bool]), .addNodeWithParent 3 1 (.output [bool]),
    .addNodeWithParent 4 1 (.cfg ⟨[bool], [bool]⟩),
    .addNodeWithParent 5 4 (.dataflowBlock [bool] [bool] [[]]),
    .addNodeWithParent 6 5 (.input [bool]), .addNodeWithParent 7 5 (.output [sumOf [[]], bool]),
    .addNodeWithParent 8 5 (.dfg ⟨[bool], [sumOf [[]], bool]⟩), .addNodeWithParent 9 5 (.dfg ⟨[bool], [sumOf [[]], bool]⟩),
    .connect ⟨6, 0, 8, 0⟩, .connect ⟨8, 1, 9, 0⟩, .connect ⟨9, 0, 7, 0⟩, .connect ⟨9, 1, 7, 1⟩, .setEntrypoint 4 ]

/-- The two blocks become one. -/
def mergeTwo : Replacement String where
  removal := [5, 7]
  replacement := built oneBlockHistory
  adoptions := [(8, 5), (9, 7)]
  muInp := []
  muOut := [⟨5, 6, .controlFlow 0⟩]
  muNew := []

theorem twoBlocks_ok : IsTree (built twoBlocksHistory) ∧ Valid unpackContext (built twoBlocksHistory) :=
  flows_ok (by decide +kernel) (by decide +kernel) (by decide +kernel)

theorem tags_of_cap {g : Hugr Ops.Op String} (ht : IsTree g)
    (hc : ∀ n < g.cap, g.live n = true → (g.ops n).tagOk = true) : ∀ n, g.live n = true → (g.ops n).tagOk = true :=
  fun n hn => hc n (ht.in_range n hn) hn

theorem oneBlock_tree : IsTree (built oneBlockHistory) := (built_ok oneBlockHistory (by decide +kernel) (by decide +kernel)).1

/-- The hypotheses hold for two blocks that are merged, what it says holds too, and the nodes in the blocks stay. -/
example : WellPosed (built twoBlocksHistory) mergeTwo ∧ mergeTwo.removal.Nodup ∧
    mergeTwo.verify (built twoBlocksHistory) ≠ .panic ∧
    ∃ R, getRemoved (built twoBlocksHistory) mergeTwo = .ok R ∧ 5 ∈ R ∧ 7 ∈ R ∧ ¬ Removes (built twoBlocksHistory) mergeTwo 8 := by
  have ht := twoBlocks_ok.1
  have t1 := tags_of_cap ht (by decide +kernel)
  have t2 := tags_of_cap (g := mergeTwo.replacement) oneBlock_tree (by decide +kernel)
  have hv : mergeTwo.verify (built twoBlocksHistory) = .ok () := by decide +kernel
  refine ⟨(C77_accepted_partial ht t1 t2).1 hv, by decide, C77_no_panic ht t1 t2 (by decide), ?_⟩
  obtain ⟨R, h1, h2⟩ := C77_removed_nodes ht hv
  have e : getRemoved (built twoBlocksHistory) mergeTwo = .ok [7, 5] := by decide +kernel
  rw [e] at h1
  cases h1
  refine ⟨_, e, by decide, by decide, fun hx => ?_⟩
  have := (h2 8).2 hx
  simp at this

/-- `main` gives what a dataflow graph, 4, gives. -/
def nestHistory : List (Cmd Ops.Op String) :=
  [ .addNodeWithParent 1 0 (.funcDefn "main" ⟨[], ⟨[bool], [bool]⟩⟩),
    .addNodeWithParent 2 1 (.input [bool]), .addNodeWithParent 3 1 (.output [bool]),
    .addNodeWithParent 4 1 (.dfg ⟨[bool], [bool]⟩), .addNodeWithParent 5 4 (.input [bool]),
    .addNodeWithParent 6 4 (.output [bool]),
    .connect ⟨2, 0, 4, 0⟩, .connect ⟨4, 0, 3, 0⟩, .connect ⟨5, 0, 6, 0⟩, .setEntrypoint 1 ]

/-- The dataflow graph is put into another. -/
def wrapIt : Replacement String where
  removal := [4]
  replacement := built nestHistory
  adoptions := []
  muInp := [⟨2, 4, .value 0 0⟩, ⟨2, 4, .order⟩]
  muOut := [⟨4, 3, .value 0 0⟩]
  muNew := [⟨2, 3, .value 0 0⟩]

/-- Value edges take the place of others: `wrapIt` is accepted, but not if nothing is linked where an edge goes. -/
example : WellPosed (built nestHistory) wrapIt ∧
    ¬ WellPosed (built nestHistory) { wrapIt with muOut := [⟨4, 3, .value 0 1⟩] } := by
  have ht : IsTree (built nestHistory) := (built_ok nestHistory (by decide +kernel) (by decide +kernel)).1
  have t1 := tags_of_cap ht (by decide +kernel)
  refine ⟨(C77_accepted_partial ht t1 t1).1 (by decide +kernel), fun w => ?_⟩
  have := (C77_accepted_partial ht t1 t1).2 w
  revert this
  decide +kernel

/-! ## Findings -/

/-- **C77** A control-flow edge from a port that the block does not have is accepted: the kind asked for at
replace.rs:112-114 is also given for ports that do not exist. -/
theorem C77_absent_port_refuted : ∃ (h : Hugr Ops.Op String) (r : Replacement String) (e : NewEdge) (s : Nat),
    IsTree h ∧ Valid unpackContext h ∧ r.verify h = .ok () ∧ e ∈ r.muOut ∧ e.kind = .controlFlow s ∧
      ((r.replacement.ops e.src).ports .outgoing).length ≤ s :=
  ⟨built twoBlocksHistory, { mergeTwo with muOut := [⟨5, 6, .controlFlow 3⟩] }, _, 3, twoBlocks_ok.1, twoBlocks_ok.2,
    by decide +kernel, List.mem_cons_self, rfl, by decide +kernel⟩

/-- **C77** When a node is listed twice for removal, the check panics in debug builds: the assertion at replace.rs:229
does not fail only if the hierarchy is not a tree, as the comment says. -/
theorem C77_listed_twice_panics : ∃ (h : Hugr Ops.Op String) (r : Replacement String),
    IsTree h ∧ Valid unpackContext h ∧ r.verify h = .panic :=
  ⟨built twoBlocksHistory, { mergeTwo with removal := [5, 5] , adoptions := [] }, twoBlocks_ok.1, twoBlocks_ok.2,
    by decide +kernel⟩

/-- The block 5 goes to the exit, and the block 7, that is not reachable, to itself. -/
def selfHistory : List (Cmd Ops.Op String) := mainHistory [bool] [bool] [[]]
  [ .addNodeWithParent 7 4 (.dataflowBlock [bool] [bool] [[]]),
    .addNodeWithParent 8 5 (.input [bool]), .addNodeWithParent 9 5 (.output [sumOf [[]], bool]),
    .addNodeWithParent 10 5 (.tag 0 [[]]),
    .addNodeWithParent 11 7 (.input [bool]), .addNodeWithParent 12 7 (.output [sumOf [[]], bool]),
    .addNodeWithParent 13 7 (.tag 0 [[]]),
    .connect ⟨5, 0, 6, 0⟩, .connect ⟨7, 0, 7, 0⟩, .connect ⟨10, 0, 9, 0⟩, .connect ⟨8, 0, 9, 1⟩,
    .connect ⟨13, 0, 12, 0⟩, .connect ⟨11, 0, 12, 1⟩ ]

/-- **C77** In a valid Hugr where an unreachable block goes only to itself, `merge_basic_blocks` merges this block with
itself. The replacement for this removes and adopts the block twice (normalize_cfgs.rs:411-413), which is never
accepted, also not by the part of the check that applying it repeats (replace.rs:341-345), and line 56 unwraps the
result. -/
theorem C77_merge_with_itself_panics : ∃ (h : Hugr Ops.Op String) (n : Nat), IsTree h ∧ Valid unpackContext h ∧
    (∃ sig, h.ops h.entrypoint = .cfg sig) ∧ (∀ w, normalizeCfg h w = .merges n n) ∧
    ∀ r : Replacement String, r.removal = [n, n] → r.adopted = [n, n] →
      r.verify h ≠ .ok () ∧ ∀ p, checkParent h r = .ok p → ∀ R, getRemoved h r ≠ .ok R := by
  obtain ⟨ht, hv⟩ := flows_ok (cmds := selfHistory) (by decide +kernel) (by decide +kernel) (by decide +kernel)
  have key : ∀ r : Replacement String, r.adopted = [7, 7] → ∀ p, checkParent (built selfHistory) r = .ok p →
      ∀ R, getRemoved (built selfHistory) r ≠ .ok R := by
    intro r ha p hp R hR
    obtain ⟨p1, p2, p3⟩ := (checkParent_ok ht).1 hp
    have := (getRemoved_ok ht p2 R hR).2.2.1
    rw [ha] at this
    simp at this
  refine ⟨built selfHistory, 7, ht, hv, ⟨_, rfl⟩, fun w => rfl, fun r _ ha => ⟨fun hok => ?_, key r ha⟩⟩
  unfold Replacement.verify at hok
  obtain ⟨p, hp, e⟩ := Vet.andThen_ok.1 hok
  obtain ⟨R, hR, e⟩ := Vet.andThen_ok.1 e
  exact key r ha p hp R hR

end Verif.Patch
