import Verif.Patch.OutlineStruct
import Verif.Patch.CfgToDfgResults
import Verif.Patch.See

/-!
# Outlining keeps results: what the two Hugrs share
-/
namespace Verif.Patch

open Verif.Graph Verif.Ops Verif.Passes Verif.Validate Verif.Dataflow

variable {Meta W K : Type} {C : Validate.Context} {h g : Hugr Ops.Op Meta} {S : Sem W K}

/-- No value of a moved block is used in a block that stays. -/
def ValuesStay (h : Hugr Ops.Op Meta) (bs : List Nat) : Prop :=
  ∀ l ∈ h.links, ∀ q ∈ bs, h.hier.parent l.src = some q → ∃ c ∈ bs, Above h.hier.parent l.dst c

structure OutlineAt (C : Validate.Context) (h : Hugr Ops.Op Meta) (G : Nat) (bs : List Nat) (entry exit port outside : Nat)
    (ins outs : List Types.Ty) (N : OutlineNew) (g : Hugr Ops.Op Meta) : Prop where
  tree : IsTree h
  valid : Valid C h
  blocks : AllBlocks h bs
  fresh : N.Fresh h
  at' : SingleEntryExit h G bs entry exit port outside
  input : BlockInput (h.ops entry) ins
  output : BlockInput (h.ops outside) outs
  treeG : IsTree g
  done : Outlined h G bs entry exit port outside ins outs N g
  stay : ValuesStay h bs

/-- Not a block. -/
def Plain (op : Ops.Op) : Prop := ∀ row, ¬ BlockInput op row

namespace OutlineAt

variable {G entry exit port outside : Nat} {bs : List Nat} {ins outs : List Types.Ty} {N : OutlineNew}
  (z : OutlineAt C h G bs entry exit port outside ins outs N g)
include z

theorem live_bs {b : Nat} (hb : b ∈ bs) : h.live b = true := (z.tree.parent_live _ _ (z.at'.siblings b hb)).1

theorem not_new {x : Nat} (hx : h.live x = true) : x ∉ N.news := z.fresh.ne hx

theorem live_link {l : Link} (hl : l ∈ h.links) : h.live l.src = true ∧ h.live l.dst = true :=
  ⟨(link_ends z.tree z.valid hl).1.1, (link_ends z.tree z.valid hl).2.1⟩

theorem live_G : h.live G = true := (z.tree.parent_live _ _ (z.at'.siblings _ z.at'.entry_mem)).2

theorem G_not : G ∉ bs := fun hb => z.tree.acyclic _ _ (z.at'.siblings G hb) (.refl _)

theorem mem_links {l : Link} : l ∈ g.links ↔ (∃ k ∈ h.links, l = N.redirect bs entry exit port k) ∨
    l ∈ N.wires ins.length outs.length ∨ l = ⟨N.block, 0, outside, 0⟩ := by
  rw [z.done.links.mem_iff]
  simp only [List.mem_append, List.mem_map, List.mem_cons, List.not_mem_nil, or_false, or_assoc]
  constructor
  · rintro (⟨k, h1, h2⟩ | h1)
    · exact .inl ⟨k, h1, h2.symm⟩
    · exact .inr h1
  · rintro (⟨k, h1, h2⟩ | h1)
    · exact .inl ⟨k, h1, h2.symm⟩
    · exact .inr h1

/-- Where a link goes. -/
theorem redirect_cases {k : Link} (hk : k ∈ h.links) :
    (k.dst = entry ∧ k.src ∉ bs ∧ N.redirect bs entry exit port k = ⟨k.src, k.srcPort, N.block, 0⟩) ∨
    (k = ⟨exit, port, outside, 0⟩ ∧ N.redirect bs entry exit port k = ⟨exit, port, N.exit, 0⟩) ∨
    (¬ (k.dst = entry ∧ k.src ∉ bs) ∧ ¬ (k.src = exit ∧ k.srcPort = port) ∧ N.redirect bs entry exit port k = k) := by
  unfold OutlineNew.redirect
  by_cases h1 : k.dst = entry ∧ k.src ∉ bs
  · rw [if_pos h1]; exact .inl ⟨h1.1, h1.2, rfl⟩
  · rw [if_neg h1]
    by_cases h2 : k.src = exit ∧ k.srcPort = port
    · rw [if_pos h2]
      refine .inr (.inl ⟨?_, ?_⟩)
      · obtain ⟨x, y, r, e⟩ := z.blocks exit z.at'.exit_mem
        have hk1 := (from_block z.valid z.at'.left e).1
        exact count_unique (out_once z.tree z.valid z.at'.left hk1) hk z.at'.left h2 ⟨rfl, rfl⟩
      · rw [← h2.1, ← h2.2]
    · rw [if_neg h2]; exact .inr (.inr ⟨h1, h2, rfl⟩)

theorem entry_block : ∃ y r, h.ops entry = .dataflowBlock ins y r := by
  obtain ⟨x, y, r, e⟩ := z.blocks entry z.at'.entry_mem
  rcases z.input with ⟨a, b, e'⟩ | e'
  · exact ⟨a, b, e'⟩
  · rw [e] at e'; cases e'

theorem entry_not_plain : ¬ Plain (h.ops entry) := fun hp => hp _ z.input

theorem outside_not_plain : ¬ Plain (h.ops outside) := fun hp => hp _ z.output

/-- Links to what is not a block are the same. -/
theorem link_same {l : Link} (hn : l.dst ∉ N.news) (hp : Plain (h.ops l.dst)) : l ∈ g.links ↔ l ∈ h.links := by
  rw [z.mem_links]
  constructor
  · rintro (⟨k, hk, rfl⟩ | hw | rfl)
    · rcases z.redirect_cases hk with ⟨_, _, e⟩ | ⟨_, e⟩ | ⟨_, _, e⟩
      · rw [e] at hn; exact absurd (by simp [OutlineNew.news]) hn
      · rw [e] at hn; exact absurd (by simp [OutlineNew.news]) hn
      · rw [e]; exact hk
    · exact absurd (OutlineNew.wires_new hw).2 hn
    · exact absurd hp z.outside_not_plain
  · intro hl
    refine .inl ⟨l, hl, ?_⟩
    rcases z.redirect_cases hl with ⟨e, _, _⟩ | ⟨e, _⟩ | ⟨_, _, e⟩
    · rw [e] at hp; exact absurd hp z.entry_not_plain
    · rw [e] at hp; exact absurd hp z.outside_not_plain
    · exact e.symm

theorem ops {x : Nat} (hx : x ∉ N.news) : g.ops x = h.ops x := (z.done.old x hx).1

theorem new_mem {x : Nat} (hx : x ∈ N.news) : ∃ e ∈ N.nodes G ins outs, e.1 = x := by
  rw [← OutlineNew.nodes_fst N G ins outs] at hx
  obtain ⟨e, h1, h2⟩ := List.mem_map.1 hx
  exact ⟨e, h1, h2⟩

theorem op_block : g.ops N.block = .dataflowBlock ins outs [[]] :=
  (z.done.new (N.block, G, .dataflowBlock ins outs [[]]) (by simp [OutlineNew.nodes])).1
theorem op_inp : g.ops N.inp = .input ins := (z.done.new (N.inp, N.block, .input ins) (by simp [OutlineNew.nodes])).1
theorem op_out : g.ops N.out = .output (sumOf [[]] :: outs) :=
  (z.done.new (N.out, N.block, .output (sumOf [[]] :: outs)) (by simp [OutlineNew.nodes])).1
theorem op_cfg : g.ops N.cfg = .cfg ⟨ins, outs⟩ := (z.done.new (N.cfg, N.block, .cfg ⟨ins, outs⟩) (by simp [OutlineNew.nodes])).1
theorem op_exit : g.ops N.exit = .exitBlock outs := (z.done.new (N.exit, N.cfg, .exitBlock outs) (by simp [OutlineNew.nodes])).1
theorem op_const : g.ops N.const = .const (sumOf [[]]) :=
  (z.done.new (N.const, N.block, .const (sumOf [[]])) (by simp [OutlineNew.nodes])).1
theorem op_load : g.ops N.load = .loadConstant (sumOf [[]]) :=
  (z.done.new (N.load, N.block, .loadConstant (sumOf [[]])) (by simp [OutlineNew.nodes])).1

theorem same_defn (hb : ∀ x ∈ N.news, ¬ IsDefn h x) (f : Nat) : IsDefn h f ↔ IsDefn g f := by
  by_cases hf : f ∈ N.news
  · refine ⟨fun hd => absurd hd (hb f hf), ?_⟩
    rintro ⟨a, b, e⟩
    simp only [OutlineNew.news, List.mem_cons, List.not_mem_nil, or_false] at hf
    rcases hf with rfl | rfl | rfl | rfl | rfl | rfl | rfl
    · rw [z.op_block] at e; cases e
    · rw [z.op_inp] at e; cases e
    · rw [z.op_out] at e; cases e
    · rw [z.op_cfg] at e; cases e
    · rw [z.op_exit] at e; cases e
    · rw [z.op_const] at e; cases e
    · rw [z.op_load] at e; cases e
  · unfold IsDefn; rw [z.ops hf]

theorem calls_iff {n f : Nat} (hn : n ∉ N.news) {ins args : List (Val W)} : Calls h n ins f args ↔ Calls g n ins f args := by
  constructor
  · intro hc
    cases hc with
    | @direct _ _ _ _ l e h2 h3 h4 =>
      refine .direct (by rw [z.ops hn]; exact e) ((z.link_same (h3 ▸ hn) ?_).2 h2) h3 h4
      rw [h3, e]; rintro row (⟨_, _, e⟩ | e) <;> cases e
    | indirect e => exact .indirect (by rw [z.ops hn]; exact e)
  · intro hc
    cases hc with
    | @direct _ _ _ _ l e h2 h3 h4 =>
      rw [z.ops hn] at e
      refine .direct e ((z.link_same (h3 ▸ hn) ?_).1 h2) h3 h4
      rw [h3, e]; rintro row (⟨_, _, e⟩ | e) <;> cases e
    | indirect e => rw [z.ops hn] at e; exact .indirect e

theorem leaf_up (hb : ∀ x ∈ N.news, ¬ IsDefn h x) {n : Nat} (hn : n ∉ N.news) {ins outs : List (Val W)}
    (hf : Leaf h S n ins outs) : Leaf g S n ins outs := by
  cases hf with
  | makeTuple e => exact .makeTuple (by rw [z.ops hn]; exact e)
  | unpackTuple e q => exact .unpackTuple (by rw [z.ops hn]; exact e) q
  | tag e => exact .tag (by rw [z.ops hn]; exact e)
  | @loadConstant _ _ l e q1 q2 q3 q4 =>
    refine .loadConstant (by rw [z.ops hn]; exact e) ((z.link_same (q2 ▸ hn) ?_).2 q1) q2 q3
      (by rw [z.ops (z.not_new (z.live_link q1).1)]; exact q4)
    rw [q2, e]; rintro row (⟨_, _, e⟩ | e) <;> cases e
  | @loadFunction _ _ _ l e q1 q2 q3 =>
    refine .loadFunction (by rw [z.ops hn]; exact e) ((z.link_same (q2 ▸ hn) ?_).2 q1) q2 q3
    rw [q2, e]; rintro row (⟨_, _, e⟩ | e) <;> cases e
  | ext e q1 q2 q3 => exact .ext (by rw [z.ops hn]; exact e) q1 q2 q3
  | external q1 q2 q3 q4 =>
    exact .external ((z.calls_iff hn).1 q1) (fun hd => q2 ((z.same_defn hb _).2 hd)) (by rw [z.ops hn]; exact q3) q4
  | unknown e q2 q3 => exact .unknown (by rw [z.ops hn]; exact e) (by rw [z.ops hn]; exact q2) q3

theorem leaf_down (hb : ∀ x ∈ N.news, ¬ IsDefn h x) {n : Nat} (hn : n ∉ N.news) {ins outs : List (Val W)}
    (hf : Leaf g S n ins outs) : Leaf h S n ins outs := by
  cases hf with
  | makeTuple e => exact .makeTuple (by rw [← z.ops hn]; exact e)
  | unpackTuple e q => exact .unpackTuple (by rw [← z.ops hn]; exact e) q
  | tag e => exact .tag (by rw [← z.ops hn]; exact e)
  | @loadConstant _ _ l e q1 q2 q3 q4 =>
    rw [z.ops hn] at e
    have hl := (z.link_same (q2 ▸ hn) (by rw [q2, e]; rintro row (⟨_, _, e⟩ | e) <;> cases e)).1 q1
    exact .loadConstant e hl q2 q3 (by rw [← z.ops (z.not_new (z.live_link hl).1)]; exact q4)
  | @loadFunction _ _ _ l e q1 q2 q3 =>
    rw [z.ops hn] at e
    have hl := (z.link_same (q2 ▸ hn) (by rw [q2, e]; rintro row (⟨_, _, e⟩ | e) <;> cases e)).1 q1
    exact .loadFunction e hl q2 q3
  | ext e q1 q2 q3 => exact .ext (by rw [← z.ops hn]; exact e) q1 q2 q3
  | external q1 q2 q3 q4 =>
    exact .external ((z.calls_iff hn).2 q1) (fun hd => q2 ((z.same_defn hb _).1 hd)) (by rw [← z.ops hn]; exact q3) q4
  | unknown e q2 q3 => exact .unknown (by rw [← z.ops hn]; exact e) (by rw [← z.ops hn]; exact q2) q3

theorem kids {p : Nat} (hn : p ∉ N.news) (hG : p ≠ G) : g.children p = h.children p :=
  z.done.children p (fun e => hn (by simp [OutlineNew.news, e])) (fun e => hn (by simp [OutlineNew.news, e])) hG

end OutlineAt

/-! ## Wires -/

/-- The wires are the same where values can be used: not in moved blocks, except those of `V`. -/
def SameVisible (h : Hugr Ops.Op Meta) (N : OutlineNew) (bs : List Nat) (V : Nat → Prop) (ρ ρ' : Wires W) : Prop :=
  ∀ n ∉ N.news, (∀ q ∈ bs, h.hier.parent n = some q → V q) → ρ n = ρ' n

/-- The same, except for the wires of the graph `p`. -/
def SameVisibleOff (h : Hugr Ops.Op Meta) (N : OutlineNew) (bs : List Nat) (V : Nat → Prop) (p : Nat) (ρ ρ' : Wires W) : Prop :=
  ∀ n ∉ N.news, n ∉ h.children p → (∀ q ∈ bs, h.hier.parent n = some q → V q) → ρ n = ρ' n

/-- Below the moved blocks, what is used from moved blocks is from `V`. -/
def Loc (h : Hugr Ops.Op Meta) (bs : List Nat) (V : Nat → Prop) (x : Nat) : Prop :=
  ∀ c ∈ bs, Above h.hier.parent x c → ∀ l ∈ h.links, Above h.hier.parent l.dst c → ∀ q ∈ bs,
    h.hier.parent l.src = some q → V q

/-- No moved block. -/
def noBlock : Nat → Prop := fun _ => False

/-- Also `b`. -/
def withBlock (V : Nat → Prop) (b : Nat) : Nat → Prop := fun q => V q ∨ q = b

/-- The blocks of `V` are those that control has to pass on the way to `b`. -/
def Route (h : Hugr Ops.Op Meta) (G : Nat) (bs : List Nat) (V : Nat → Prop) (b : Nat) : Prop :=
  ∀ first rest, h.children G = first :: rest → ∀ q ∈ bs, Dominates (RegionEdge h G) first q b → withBlock V b q

/-- Control can get to `b`. -/
def CanReach (h : Hugr Ops.Op Meta) (G b : Nat) : Prop :=
  ∀ first rest, h.children G = first :: rest → Relation.ReflTransGen (RegionEdge h G) first b

theorem SameVisible.weaken {V : Nat → Prop} {bs : List Nat} {N : OutlineNew} {ρ ρ' : Wires W} (ha : SameVisible h N bs V ρ ρ') :
    SameVisible h N bs noBlock ρ ρ' := fun n hn hq => ha n hn fun q h1 h2 => (hq q h1 h2).elim

theorem SameVisible.off {V : Nat → Prop} {bs : List Nat} {N : OutlineNew} {ρ ρ' : Wires W} (ha : SameVisible h N bs V ρ ρ') (p : Nat) :
    SameVisibleOff h N bs V p ρ ρ' := fun n hn _ hq => ha n hn hq

namespace OutlineAt

variable {G entry exit port outside : Nat} {bs : List Nat} {ins outs : List Types.Ty} {N : OutlineNew}
  (z : OutlineAt C h G bs entry exit port outside ins outs N g)
include z

theorem off_block {V : Nat → Prop} {ρ ρ' : Wires W} (ha : SameVisible h N bs V ρ ρ') (b : Nat) :
    SameVisibleOff h N bs (withBlock V b) b ρ ρ' := by
  intro n hn hc hq
  refine ha n hn fun q h1 h2 => (hq q h1 h2).resolve_right ?_
  rintro rfl
  exact hc ((z.tree.child_iff _ _).2 h2)

theorem loc_none {x : Nat} (hx : ∀ c ∈ bs, ¬ Above h.hier.parent x c) (V : Nat → Prop) : Loc h bs V x :=
  fun c hc ha => absurd ha (hx c hc)

theorem loc_child {V : Nat → Prop} {x y : Nat} (hl : Loc h bs V x) (hp : h.hier.parent y = some x) (hG : x ≠ G) :
    Loc h bs V y := by
  intro c hc ha
  cases ha with
  | refl => exact absurd (Option.some.inj (hp.symm.trans (z.at'.siblings _ hc))) hG
  | step hp' ha =>
    rw [hp] at hp'; cases hp'
    exact hl c hc ha

theorem not_above_G {c : Nat} (hc : c ∈ bs) : ¬ Above h.hier.parent G c := z.tree.acyclic _ _ (z.at'.siblings c hc)

/-- A child of `G` that stays is in no moved block. -/
theorem stays_above {b c : Nat} (hb : h.hier.parent b = some G) (hn : b ∉ bs) (hc : c ∈ bs) : ¬ Above h.hier.parent b c := by
  intro ha
  cases ha with
  | refl => exact hn hc
  | step hp ha =>
    rw [hb] at hp; cases hp
    exact z.not_above_G hc ha

theorem only_block {b c : Nat} (hb : b ∈ bs) (hc : c ∈ bs) (ha : Above h.hier.parent b c) : c = b := by
  cases ha with
  | refl => rfl
  | step hp ha =>
    rw [z.at'.siblings b hb] at hp; cases hp
    exact absurd ha (z.not_above_G hc)

theorem same_block {x b c : Nat} (hb : b ∈ bs) (hc : c ∈ bs) (h1 : Above h.hier.parent x b) (h2 : Above h.hier.parent x c) :
    b = c := by
  rcases h1.total h2 with ha | ha
  · exact (z.only_block hb hc ha).symm
  · exact z.only_block hc hb ha

/-- What is used in a block is from blocks that control has passed. -/
theorem loc_block {V : Nat → Prop} {b : Nat} (hb : b ∈ bs) (hr : Route h G bs V b) : Loc h bs (withBlock V b) b := by
  intro c hc ha l hl hd q hq hs
  rw [z.only_block hb hc ha] at hd
  obtain ⟨kind, _, _, p, hp, he⟩ := z.valid.kinds l hl
  rw [hs] at hp; cases hp
  have hin : Above h.hier.parent l.dst q → withBlock V b q := fun ha => .inr (z.same_block hq hb ha hd)
  rcases he with he | ⟨q', a, h1, h2, h3⟩
  · exact hin (.of_parent he)
  · rcases h3 with ⟨_, h3⟩ | ⟨_, ⟨h3, _⟩ | ⟨G', sig, first, rest, n1, n2, n3, n4, n5, n6⟩⟩
    · exact hin (.step h1 (h2.trans (.of_parent h3)))
    · exact hin (.step h1 (h2.trans (.of_parent h3)))
    · rw [z.at'.siblings q hq] at n2; cases n2
      have hda : Above h.hier.parent l.dst a := .step h1 h2
      have : a = b := by
        rcases hda.total hd with ha | ha
        · cases ha with
          | refl => rfl
          | step hp ha =>
            rw [n3] at hp; cases hp
            exact absurd ha (z.not_above_G hb)
        · cases ha with
          | refl => rfl
          | step hp ha =>
            rw [z.at'.siblings b hb] at hp; cases hp
            exact absurd ha (z.tree.acyclic _ _ n3)
      subst this
      exact hr first rest n5 q hq n6

/-- Control goes on to another moved block. -/
theorem route_step {V : Nat → Prop} {b c : Nat} (hr : Route h G bs V b) (hre : CanReach h G b) (he : RegionEdge h G b c) :
    Route h G bs (withBlock V b) c := by
  intro first rest hc q hq hd
  rcases dominates_step (hre first rest hc) he hd with e | hd
  · exact .inr e
  · exact .inl (hr first rest hc q hq hd)

theorem reached_step {b c : Nat} (hre : CanReach h G b) (he : RegionEdge h G b c) : CanReach h G c :=
  fun first rest hc => .tail (hre first rest hc) he

/-- Control that comes from outside has to pass no moved block. -/
theorem route_entry (hre : CanReach h G entry) : Route h G bs noBlock entry := by
  intro first rest hc q hq hd
  have key : ∀ x, Relation.ReflTransGen (RegionEdge h G) first x →
      (∀ q ∈ bs, ¬ Dominates (RegionEdge h G) first q x) ∨ ∀ q ∈ bs, Dominates (RegionEdge h G) first q entry → q = entry := by
    intro x hx
    induction hx with
    | refl =>
      by_cases hf : first ∈ bs
      · refine .inr fun q hq hd => ?_
        have : first = entry := (z.at'.enters first hf).1 (.inl (by rw [hc]; rfl))
        rw [this] at hd
        exact dominates_entry hd
      · exact .inl fun q hq hd => hf (dominates_entry hd ▸ hq)
    | @tail x y hxr he ih =>
      rcases ih with ih | ih
      · have hxn : x ∉ bs := fun hx => ih x hx ⟨hxr, fun π _ hl _ => List.mem_of_getLast? hl⟩
        by_cases hy : y ∈ bs
        · obtain ⟨_, _, l, l1, l2, l3⟩ := he
          have hye : y = entry := (z.at'.enters y hy).1 (.inr ⟨l, l1, l3, l2 ▸ hxn⟩)
          subst hye
          refine .inr fun q hq hd => ?_
          rcases dominates_step hxr ⟨‹_›, ‹_›, l, l1, l2, l3⟩ hd with e | hd
          · exact e
          · exact absurd hd (ih q hq)
        · refine .inl fun q hq hd => ?_
          rcases dominates_step hxr he hd with e | hd
          · exact hy (e ▸ hq)
          · exact ih q hq hd
      · exact .inr ih
  rcases key entry (hre first rest hc) with hk | hk
  · exact absurd ⟨hre first rest hc, fun π _ hl _ => List.mem_of_getLast? hl⟩ (hk entry z.at'.entry_mem)
  · exact .inr (hk q hq hd)

theorem ready_up {V : Nat → Prop} {σ σ' : Wires W} (hσ : SameVisible h N bs V σ σ') {n : Nat} (hn : n ∉ N.news) (hp : Plain (h.ops n))
    (hl : Loc h bs V n) {ins : List (Val W)} (hr : Ready h σ n ins) : Ready g σ' n ins := by
  refine ⟨by rw [z.ops hn]; exact hr.1, fun k v hk => ?_⟩
  obtain ⟨l, l1, l2, l3, l4⟩ := hr.2 k v hk
  refine ⟨l, (z.link_same (l2 ▸ hn) (l2 ▸ hp)).2 l1, l2, l3, ?_⟩
  rw [← hσ _ (z.not_new (z.live_link l1).1) ?_]; · exact l4
  intro q hq hs
  obtain ⟨c, hc, ha⟩ := z.stay l l1 q hq hs
  exact hl c hc (l2 ▸ ha) l l1 ha q hq hs

theorem ready_down {V : Nat → Prop} {σ σ' : Wires W} (hσ : SameVisible h N bs V σ σ') {n : Nat} (hn : n ∉ N.news) (hp : Plain (h.ops n))
    (hl : Loc h bs V n) {ins : List (Val W)} (hr : Ready g σ' n ins) : Ready h σ n ins := by
  refine ⟨by have := hr.1; rw [z.ops hn] at this; exact this, fun k v hk => ?_⟩
  obtain ⟨l, l1, l2, l3, l4⟩ := hr.2 k v hk
  have l1 := (z.link_same (l2 ▸ hn) (l2 ▸ hp)).1 l1
  refine ⟨l, l1, l2, l3, ?_⟩
  rw [hσ _ (z.not_new (z.live_link l1).1) ?_]; · exact l4
  intro q hq hs
  obtain ⟨c, hc, ha⟩ := z.stay l l1 q hq hs
  exact hl c hc (l2 ▸ ha) l l1 ha q hq hs

/-- Children of a dataflow graph are no blocks. -/
theorem kid_plain {p n : Nat} (hp : h.hier.parent n = some p) (hc : ∀ sig, h.ops p ≠ .cfg sig) : Plain (h.ops n) := by
  have hm := z.valid.contains _ _ hp
  intro row hb
  cases hop : h.ops p with
  | cfg sig => exact hc sig hop
  | module => rw [hop] at hm; rcases hb with ⟨_, _, e⟩ | e <;> rw [e] at hm <;> exact hm
  | conditional => rw [hop] at hm; rcases hb with ⟨_, _, e⟩ | e <;> rw [e] at hm <;> exact hm
  | _ => rw [hop] at hm; rcases hb with ⟨_, _, e⟩ | e <;> rw [e] at hm <;> exact hm.2

theorem live_of_io {p i o : Nat} (h1 : HasIO h p i o) : h.live p = true := by
  obtain ⟨rest, h1⟩ := h1
  by_contra hc
  have := (z.tree.dead (by simpa using hc)).2
  change h.children p = [] at this
  rw [this] at h1; cases h1

theorem block_kids {b : Nat} {x y : List Types.Ty} {r : List (List Types.Ty)} (hb : h.live b = true)
    (hop : h.ops b = .dataflowBlock x y r) {i o : Nat} (hio : HasIO h b i o) :
    h.ops i = .input x ∧ h.ops o = .output (sumOf r :: y) := by
  have hc := z.valid.children b hb
  unfold ChildrenOk at hc
  rw [hop] at hc
  obtain ⟨inp, out, rest, c1, c2, c3, _⟩ := hc
  obtain ⟨rest', hio⟩ := hio
  rw [c1] at hio
  cases hio
  exact ⟨c2, c3⟩

end OutlineAt

end Verif.Patch
