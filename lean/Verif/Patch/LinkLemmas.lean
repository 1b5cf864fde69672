import Verif.Patch.InlineDfg
import Verif.Patch.InlineDfgSpec
import Verif.Ops.PortProps
import Mathlib.Tactic.Common

/-!
# Lemmas about loops that add links
-/
namespace Verif.Patch

open Verif.Graph Verif.Ops Verif.Passes Verif.Validate

variable {Meta α : Type}

/-! ## Order ports -/

/-- The last port of an operation. -/
def lastPort (op : Ops.Op) (dir : Ops.Dir) : Nat := (op.ports dir).length - 1

/-- The link between the last ports. -/
def ordLink (h : Hugr Ops.Op Meta) (s t : Nat) : Link :=
  ⟨s, lastPort (h.ops s) .outgoing, t, lastPort (h.ops t) .incoming⟩

theorem order_last {op : Ops.Op} {dir : Ops.Dir} {kind : Kind} (hm : kind ∈ op.ports dir)
    (hk : kind.isValue = true ∨ kind = .stateOrder) :
    ∃ pre, op.ports dir = pre ++ [.stateOrder] ∧ ∀ k ∈ pre, k.isOther = false := by
  cases op <;> cases dir <;> simp only [Op.ports, List.not_mem_nil] at hm ⊢
  all_goals first
    | exact ⟨_, rfl, by intro k hk; simp only [List.mem_map] at hk; obtain ⟨x, _, rfl⟩ := hk; rfl⟩
    | (simp only [List.mem_singleton] at hm; subst hm; simp [Kind.isValue] at hk)
    | exact ⟨[_], rfl, by intro k hk; simp only [List.mem_singleton] at hk; subst hk; rfl⟩
    | exact ⟨_ :: List.map _ _, rfl, by
        intro k hk; simp only [List.mem_cons, List.mem_map] at hk
        rcases hk with rfl | ⟨x, _, rfl⟩ <;> rfl⟩
    | exact ⟨List.map _ _ ++ [_], (List.append_assoc _ [_] [_]).symm, by
        intro k hk; simp only [List.mem_append, List.mem_map, List.mem_singleton] at hk
        rcases hk with ⟨x, _, rfl⟩ | rfl <;> rfl⟩
    | (simp only [List.mem_map] at hm; obtain ⟨x, _, rfl⟩ := hm; simp [Kind.isValue] at hk)

theorem otherPort_last {op : Ops.Op} (ht : op.tagOk = true) {dir : Ops.Dir} {kind : Kind}
    (hm : kind ∈ op.ports dir) (hk : kind.isValue = true ∨ kind = .stateOrder) :
    op.otherPort dir = .ok (some (lastPort op dir)) ∧ lastPort op dir < (op.ports dir).length ∧
      ∀ j, (op.ports dir)[j]? = some .stateOrder ↔ j = lastPort op dir := by
  obtain ⟨pre, hp, hpre⟩ := order_last hm hk
  rw [C10_other_port op dir ht]
  unfold lastPort
  rw [hp]
  refine ⟨?_, by simp, ?_⟩
  · rw [List.findIdx?_append, List.findIdx?_eq_none_iff.2 (by intro x hx; simp [hpre x hx])]
    simp [List.findIdx?_cons, Kind.isOther]
  · intro j
    constructor
    · intro hj
      rw [List.getElem?_append] at hj
      split at hj
      · have := hpre _ (List.mem_of_getElem? hj)
        simp [Kind.isOther] at this
      · have := (List.getElem?_eq_some_iff.1 hj).1
        simp at this ⊢
        omega
    · rintro rfl
      simp

/-! ## Loops that add links -/

/-- Only the links are different. -/
def SetLinks (h : Hugr Ops.Op Meta) (ls : List Link) : Hugr Ops.Op Meta := { h with links := ls }

@[simp] theorem setLinks_links (h : Hugr Ops.Op Meta) (ls) : (SetLinks h ls).links = ls := rfl
@[simp] theorem setLinks_ops (h : Hugr Ops.Op Meta) (ls) : (SetLinks h ls).ops = h.ops := rfl
@[simp] theorem setLinks_live (h : Hugr Ops.Op Meta) (ls) : (SetLinks h ls).live = h.live := rfl
@[simp] theorem setLinks_ins (h : Hugr Ops.Op Meta) (ls) : (SetLinks h ls).ins = h.ins := rfl
@[simp] theorem setLinks_outs (h : Hugr Ops.Op Meta) (ls) : (SetLinks h ls).outs = h.outs := rfl
@[simp] theorem setLinks_setLinks (h : Hugr Ops.Op Meta) (ls ls') :
    SetLinks (SetLinks h ls) ls' = SetLinks h ls' := rfl
@[simp] theorem setLinks_self (h : Hugr Ops.Op Meta) : SetLinks h h.links = h := rfl
@[simp] theorem ordLink_setLinks (h : Hugr Ops.Op Meta) (ls) : ordLink (SetLinks h ls) = ordLink h := rfl

/-- The ports that a node has. -/
def portsOf (h : Hugr Ops.Op Meta) (n : Nat) : Ops.Dir → Nat
  | .incoming => h.ins n
  | .outgoing => h.outs n

/-- The node has an order port. -/
structure HasOrder (h : Hugr Ops.Op Meta) (n : Nat) (dir : Ops.Dir) : Prop where
  live : h.live n = true
  port : (h.ops n).otherPort dir = .ok (some (lastPort (h.ops n) dir))
  range : lastPort (h.ops n) dir < portsOf h n dir

theorem HasOrder.setLinks {h : Hugr Ops.Op Meta} {n dir} (ho : HasOrder h n dir) (ls) :
    HasOrder (SetLinks h ls) n dir := ⟨ho.live, ho.port, by cases dir <;> exact ho.range⟩

theorem addOtherEdge_eq {h : Hugr Ops.Op Meta} {s t : Nat} (hs : HasOrder h s .outgoing)
    (ht : HasOrder h t .incoming) :
    addOtherEdge h s t = some (SetLinks h (h.links ++ [ordLink h s t])) := by
  unfold addOtherEdge
  rw [hs.port, ht.port]
  simp only [Hugr.connect, hs.live, ht.live]
  have h1 := hs.range
  have h2 := ht.range
  simp only [portsOf] at h1 h2
  simp only [h1, h2]
  rfl

theorem orderTo_eq {h : Hugr Ops.Op Meta} {s : Nat} (hs : HasOrder h s .outgoing) (ts : List Nat)
    (ht : ∀ t ∈ ts, HasOrder h t .incoming) :
    orderTo h s ts = some (SetLinks h (h.links ++ ts.map (ordLink h s))) := by
  unfold orderTo
  induction ts generalizing h with
  | nil => simp [each]
  | cons t ts ih =>
    simp only [each, addOtherEdge_eq hs (ht t List.mem_cons_self)]
    rw [ih (hs.setLinks _) fun x hx => (ht x (List.mem_cons_of_mem _ hx)).setLinks _]
    simp

theorem orderFrom_eq {h : Hugr Ops.Op Meta} {t : Nat} (ht : HasOrder h t .incoming) (ss : List Nat)
    (hs : ∀ s ∈ ss, HasOrder h s .outgoing) :
    orderFrom h ss t = some (SetLinks h (h.links ++ ss.map fun s => ordLink h s t)) := by
  unfold orderFrom
  induction ss generalizing h with
  | nil => simp [each]
  | cons s ss ih =>
    simp only [each, addOtherEdge_eq (hs s List.mem_cons_self) ht]
    rw [ih (ht.setLinks _) fun x hx => (hs x (List.mem_cons_of_mem _ hx)).setLinks _]
    simp

/-- A port that a link can start at, or end at. -/
def CanStart (h : Hugr Ops.Op Meta) (n port : Nat) : Prop := h.live n = true ∧ port < h.outs n
def CanEnd (h : Hugr Ops.Op Meta) (n port : Nat) : Prop := h.live n = true ∧ port < h.ins n

theorem connect_eq {h : Hugr Ops.Op Meta} {l : Link} (hs : CanStart h l.src l.srcPort)
    (ht : CanEnd h l.dst l.dstPort) : h.connect l = some (SetLinks h (h.links ++ [l])) := by
  unfold Hugr.connect
  simp only [hs.1, hs.2, ht.1, ht.2]
  rfl

theorem connectEach_eq {h : Hugr Ops.Op Meta} {s sp : Nat} (hs : CanStart h s sp)
    (ts : List (Nat × Nat)) (ht : ∀ t ∈ ts, CanEnd h t.1 t.2) :
    each (fun g t => g.connect ⟨s, sp, t.1, t.2⟩) h ts =
      some (SetLinks h (h.links ++ ts.map fun t => ⟨s, sp, t.1, t.2⟩)) := by
  induction ts generalizing h with
  | nil => simp [each]
  | cons t ts ih =>
    simp only [each]
    rw [connect_eq (l := ⟨s, sp, t.1, t.2⟩) hs (ht t List.mem_cons_self)]
    have := ih (h := SetLinks h (h.links ++ [(⟨s, sp, t.1, t.2⟩ : Link)])) hs
      fun x hx => ht x (List.mem_cons_of_mem _ hx)
    simp only [this]
    simp

theorem disconnect_eq {h : Hugr Ops.Op Meta} {n port : Nat} {dir : Graph.Dir} (hl : h.live n = true)
    (hp : port < h.numPorts n dir) :
    h.disconnect n dir port = some (SetLinks h (h.links.filter fun l => !l.at n dir port)) := by
  unfold Hugr.disconnect
  simp only [hl, hp]
  rfl

theorem disconnect_set {h : Hugr Ops.Op Meta} {n port : Nat} {dir : Graph.Dir} (hl : h.live n = true)
    (hp : port < h.numPorts n dir) (ls : List Link) :
    (SetLinks h ls).disconnect n dir port = some (SetLinks h (ls.filter fun l => !l.at n dir port)) :=
  disconnect_eq (h := SetLinks h ls) hl (by cases dir <;> exact hp)

theorem mem_linkedInputs {h : Hugr Ops.Op Meta} {n port : Nat} {t : Nat × Nat} :
    t ∈ h.linkedInputs n port ↔ ⟨n, port, t.1, t.2⟩ ∈ h.links := by
  simp only [Hugr.linkedInputs, List.mem_map, List.mem_filter, Bool.and_eq_true, decide_eq_true_eq]
  constructor
  · rintro ⟨l, ⟨hl, rfl, rfl⟩, rfl⟩; exact hl
  · intro hl; exact ⟨_, ⟨hl, rfl, rfl⟩, rfl⟩

theorem mem_linkedOutputs {h : Hugr Ops.Op Meta} {n port : Nat} {s : Nat × Nat} :
    s ∈ h.linkedOutputs n port ↔ ⟨s.1, s.2, n, port⟩ ∈ h.links := by
  simp only [Hugr.linkedOutputs, List.mem_map, List.mem_filter, Bool.and_eq_true, decide_eq_true_eq]
  constructor
  · rintro ⟨l, ⟨hl, rfl, rfl⟩, rfl⟩; exact hl
  · intro hl; exact ⟨_, ⟨hl, rfl, rfl⟩, rfl⟩

theorem mem_outputNeighbours {h : Hugr Ops.Op Meta} {n t : Nat} :
    t ∈ outputNeighbours h n ↔ ∃ l ∈ h.links, l.src = n ∧ l.dst = t := by
  simp only [outputNeighbours, List.mem_map, List.mem_filter, decide_eq_true_eq]
  constructor
  · rintro ⟨l, ⟨hl, rfl⟩, rfl⟩; exact ⟨l, hl, rfl, rfl⟩
  · rintro ⟨l, hl, rfl, rfl⟩; exact ⟨l, ⟨hl, rfl⟩, rfl⟩

theorem mem_inputNeighbours {h : Hugr Ops.Op Meta} {n s : Nat} :
    s ∈ inputNeighbours h n ↔ ∃ l ∈ h.links, l.dst = n ∧ l.src = s := by
  simp only [inputNeighbours, List.mem_map, List.mem_filter, decide_eq_true_eq]
  constructor
  · rintro ⟨l, ⟨hl, rfl⟩, rfl⟩; exact ⟨l, hl, rfl, rfl⟩
  · rintro ⟨l, hl, rfl, rfl⟩; exact ⟨l, ⟨hl, rfl⟩, rfl⟩

/-- The number of links into a port. -/
def inCount (ls : List Link) (n port : Nat) : Nat := ls.countP fun l => l.dst = n && l.dstPort = port

theorem singleLinked_of_count {h : Hugr Ops.Op Meta} {n port : Nat} (hc : inCount h.links n port = 1) :
    ∃ s sp, singleLinkedOutput h n port = some (s, sp) ∧
      ∀ s' sp', ⟨s', sp', n, port⟩ ∈ h.links ↔ s' = s ∧ sp' = sp := by
  have hl : (h.linkedOutputs n port).length = 1 := by
    simpa [Hugr.linkedOutputs, inCount, List.countP_eq_length_filter] using hc
  obtain ⟨x, hx⟩ := List.length_eq_one_iff.1 hl
  refine ⟨x.1, x.2, by unfold singleLinkedOutput; rw [hx], fun s' sp' => ?_⟩
  rw [← mem_linkedOutputs (s := (s', sp')), hx, List.mem_singleton, Prod.ext_iff]

end Verif.Patch
