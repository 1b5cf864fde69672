import Verif.Patch.MoveOutValid
import Verif.Patch.StaticValid
import Verif.Patch.UntupleMeans
import Verif.Patch.Extra
import Verif.Patch.OutlineUp

/-!
# Moving the last block out of a control-flow graph: results
-/
namespace Verif.Patch

open Verif.Graph Verif.Ops Verif.Passes Verif.Validate Verif.Dataflow

variable {Meta W K : Type} {C : Validate.Context} {h g : Hugr Ops.Op Meta} {S : Sem W K}

/-- The same values on the wires inside `P`. -/
def AgreeIn (h : Hugr Ops.Op Meta) (P : Nat) (ρ ρ' : Wires W) : Prop :=
  ∀ x, Above h.hier.parent x P → x ≠ P → ρ' x = ρ x

/-- The same values on the wires that can be used below `q`, where what was given by `G` is given by `d`. -/
def AgreeAt (h : Hugr Ops.Op Meta) (G P d w q : Nat) (ρ ρ' : Wires W) : Prop :=
  (Above h.hier.parent q P → AgreeIn h P ρ ρ') ∧
  (¬ Above h.hier.parent q P → (∀ x, x ≠ G → x ≠ d → x ≠ w → ρ' x = ρ x) ∧ ρ' d = ρ G)

theorem AgreeAt.congr {G P d w a b : Nat} {ρ ρ' : Wires W} (hab : Above h.hier.parent b P ↔ Above h.hier.parent a P)
    (ha : AgreeAt h G P d w a ρ ρ') : AgreeAt h G P d w b ρ ρ' := by
  unfold AgreeAt; rw [hab]; exact ha

theorem AgreeAt.none {G P d w a : Nat} : AgreeAt h G P d w a (noWires : Wires W) noWires :=
  ⟨fun _ _ _ _ => rfl, fun _ => ⟨fun _ _ _ _ => rfl, rfl⟩⟩

theorem graph_frame {ρ σ : Wires W} {q : Nat} {vals outs : List (Val W)} (hr : Runs h S (.graph ρ q vals outs σ)) :
    ∀ n, n ∉ h.children q → σ n = ρ n := by
  cases hr with
  | graph _ h2 => exact h2

theorem graph_vals {ρ σ : Wires W} {q i o : Nat} {vals outs : List (Val W)} (hio : HasIO h q i o)
    (hr : Runs h S (.graph ρ q vals outs σ)) : vals.length = numOuts (h.ops i) := by
  cases hr with
  | graph h1 _ _ h4 =>
    obtain ⟨r, h1⟩ := h1
    obtain ⟨r', hio⟩ := hio
    rw [hio] at h1; cases h1
    exact h4

theorem calls_op {n f : Nat} {ins args : List (Val W)} (hc : Calls h n ins f args) :
    (∃ s a t, h.ops n = .call s a t) ∨ ∃ s, h.ops n = .callIndirect s := by
  cases hc with
  | direct e => exact .inl ⟨_, _, _, e⟩
  | indirect e => exact .inr ⟨_, e⟩

/-- A container is no leaf. -/
theorem leaf_not {n : Nat} (hop : (∃ s, h.ops n = .cfg s) ∨ ∃ s, h.ops n = .dfg s) {ins outs : List (Val W)} :
    ¬ Leaf h S n ins outs := by
  intro hf
  have key : ∀ {op}, h.ops n = op → (∃ s, op = .cfg s) ∨ ∃ s, op = .dfg s := by
    intro op e; rw [e] at hop; exact hop
  cases hf with
  | makeTuple e => simpa using key e
  | unpackTuple e => simpa using key e
  | tag e => simpa using key e
  | loadConstant e => simpa using key e
  | loadFunction e => simpa using key e
  | ext e => simpa using key e
  | external q1 =>
    rcases calls_op q1 with ⟨_, _, _, e⟩ | ⟨_, e⟩ <;> simpa using key e
  | unknown e => simpa using key e

namespace MovesLast

variable {p G E X P i o d w : Nat} {more inner : List Nat} {sig : Types.Signature} {ins row other : List Types.Ty}
  (z : MovesLast C h g p G E X P i o d w more inner sig ins row other)
include z

theorem same_defn (hd : ¬ IsDefn h d) (hw : ¬ IsDefn h w) (f : Nat) : IsDefn h f ↔ IsDefn g f := by
  by_cases hl : g.live f = true
  · rcases z.live_cases hl with ⟨h1, h2⟩ | rfl | rfl
    · by_cases hG : f = G
      · subst hG; unfold IsDefn; rw [z.op_G, z.at'.op]; simp
      by_cases hP : f = P
      · subst hP; unfold IsDefn; rw [z.op_P, z.at'.opP]; simp
      by_cases ho : f = o
      · subst ho; unfold IsDefn; rw [z.op_o, z.at'.opO]; simp
      · unfold IsDefn; rw [z.ops h1 h2 hG hP ho]
    · refine ⟨fun h => absurd h hd, ?_⟩
      rintro ⟨_, _, e⟩; rw [z.op_d] at e; cases e
    · refine ⟨fun h => absurd h hw, ?_⟩
      rintro ⟨_, _, e⟩; rw [z.op_w] at e; cases e
  · have hg := z.put.gone f (by simpa using hl)
    by_cases hX : f = X
    · rw [if_pos hX] at hg
      unfold IsDefn; rw [hg, hX, z.at'.opX]; simp
    · rw [if_neg hX] at hg
      unfold IsDefn; rw [hg]

/-! ## Links -/

theorem link_up {l : Link} (hl : l ∈ h.links) (hs : l.src ≠ P) (ho : l.dst ≠ o) : passOn G d l ∈ g.links :=
  z.mem_links.2 (.inl ⟨l, hl, hs, by rw [redirect_ne ho]⟩)

theorem link_down {l : Link} (hl : l ∈ g.links) (hw : l.dst ≠ w) (ho : l.dst ≠ o) (hd : l.dst ≠ d) :
    ∃ k ∈ h.links, k.src ≠ P ∧ k.dst ≠ o ∧ l = passOn G d k := by
  rcases z.mem_links.1 hl with ⟨k, hk, k1, rfl⟩ | ⟨r, _, rfl⟩ | ⟨r, _, rfl⟩
  · rw [(moved_eq k).2.2.1] at hw ho
    rcases redirect_dst (o := o) (w := w) (len := row.length) k with ⟨e', e⟩ | ⟨_, _, e⟩ | ⟨_, j, _, e⟩
    · exact ⟨k, hk, k1, e', by rw [e]⟩
    · rw [e] at hw; exact absurd rfl hw
    · rw [e] at ho; exact absurd rfl ho
  · exact absurd rfl ho
  · exact absurd rfl hd

theorem pass_id {l : Link} (hs : l.src ≠ G) : passOn G d l = l := by
  unfold passOn; rw [if_neg hs]

/-- Values inside the block come from there. -/
theorem from_in {l : Link} (hl : l ∈ h.links) (hd : Above h.hier.parent l.dst P) (hne : l.dst ≠ P)
    (hv : l.dstPort < numIns (h.ops l.dst)) : Above h.hier.parent l.src P ∧ l.src ≠ P := by
  refine ⟨?_, z.from_P hl (z.in_ne hd hne).2.1⟩
  by_contra hc
  obtain ⟨_, kind, k1, k2⟩ := z.at'.closed l hl hd hne hc
  obtain ⟨kind', j1, j2, _⟩ := z.valid.kinds l hl
  rw [k1] at j1; cases j1
  obtain ⟨t, ht⟩ := in_kind (z.valid.tags _ (z.live_link hl).2) hv
  rw [j2] at ht; cases ht; cases k2

theorem src_agree {l : Link} (hl : l ∈ h.links) (hne : l.dst ≠ P) (hv : l.dstPort < numIns (h.ops l.dst)) {σ σ' : Wires W}
    (ha : AgreeAt h G P d w l.dst σ σ') : σ' (if l.src = G then d else l.src) = σ l.src := by
  by_cases hin : Above h.hier.parent l.dst P
  · obtain ⟨s1, s2⟩ := z.from_in hl hin hne hv
    rw [if_neg (z.in_ne s1 s2).1]
    exact ha.1 hin _ s1 s2
  · by_cases e : l.src = G
    · rw [if_pos e, e]; exact (ha.2 hin).2
    · rw [if_neg e]
      obtain ⟨l1, _⟩ := z.live_link hl
      exact (ha.2 hin).1 _ e (z.ne_d l1) (z.ne_w l1)

theorem ready_up {σ σ' : Wires W} {n : Nat} (h1 : h.live n = true) (hX : n ≠ X) (ho : n ≠ o) (hP : n ≠ P)
    (ha : AgreeAt h G P d w n σ σ') {ins' : List (Val W)} (hr : Ready h σ n ins') : Ready g σ' n ins' := by
  refine ⟨by unfold numIns; rw [z.in_ports h1 hX ho]; exact hr.1, fun k v hk => ?_⟩
  obtain ⟨l, l1, l2, l3, l4⟩ := hr.2 k v hk
  have hlt : l.dstPort < numIns (h.ops l.dst) := by
    rw [l3, l2, ← hr.1]; exact (List.getElem?_eq_some_iff.1 hk).1
  obtain ⟨f1, f2, f3, f4⟩ := passOn_eq (G := G) (d := d) l
  refine ⟨passOn G d l, z.link_up l1 (z.from_P l1 (by rw [l2]; exact hX)) (by rw [l2]; exact ho), f2.trans l2, f3.trans l3, ?_⟩
  rw [f1, f4, z.src_agree (σ := σ) (σ' := σ') l1 (by rw [l2]; exact hP) hlt (by rw [l2]; exact ha)]
  exact l4

theorem ready_down {σ σ' : Wires W} {n : Nat} (h1 : h.live n = true) (hX : n ≠ X) (ho : n ≠ o) (hP : n ≠ P)
    (ha : AgreeAt h G P d w n σ σ') {ins' : List (Val W)} (hr : Ready g σ' n ins') : Ready h σ n ins' := by
  have hlen : ins'.length = numIns (h.ops n) := by
    have := hr.1; unfold numIns at this; rw [z.in_ports h1 hX ho] at this; exact this
  refine ⟨hlen, fun k v hk => ?_⟩
  obtain ⟨l, l1, l2, l3, l4⟩ := hr.2 k v hk
  obtain ⟨m, m1, m2, m3, rfl⟩ := z.link_down l1 (by rw [l2]; exact z.ne_w h1) (by rw [l2]; exact ho) (by rw [l2]; exact z.ne_d h1)
  obtain ⟨f1, f2, f3, f4⟩ := passOn_eq (G := G) (d := d) m
  rw [f2] at l2
  rw [f3] at l3
  have hlt : m.dstPort < numIns (h.ops m.dst) := by
    rw [l3, l2, ← hlen]; exact (List.getElem?_eq_some_iff.1 hk).1
  rw [f1, f4, z.src_agree (σ := σ) (σ' := σ') m1 (by rw [l2]; exact hP) hlt (by rw [l2]; exact ha)] at l4
  exact ⟨m, m1, l2, l3, l4⟩

theorem numOuts_eq {n : Nat} (h1 : h.live n = true) (h2 : n ≠ X) (hG : n ≠ G) (hP : n ≠ P) :
    numOuts (g.ops n) = numOuts (h.ops n) := by
  unfold numOuts; rw [z.out_ports h1 h2 hG hP]

/-- Static data does not come from the control-flow graph or its block. -/
theorem static_src {l : Link} (hl : l ∈ h.links) (hs : (h.ops l.dst).ownStaticPort = some l.dstPort) : l.src ≠ G ∧ l.src ≠ P := by
  obtain ⟨kind, k1, k2, _⟩ := z.valid.kinds l hl
  have hk : (∃ s, kind = .function s) ∨ ∃ t, kind = .const t := by
    rcases static_kind hs with ⟨s, e⟩ | ⟨t, _, e⟩
    · rw [k2] at e; exact .inl ⟨s, Option.some.inj e⟩
    · rw [k2] at e; exact .inr ⟨t, Option.some.inj e⟩
  have hm := List.mem_of_getElem? k1
  constructor
  · intro e
    rw [e, z.at'.op] at hm
    simp only [Op.ports, List.mem_append, List.mem_map, List.mem_singleton] at hm
    rcases hk with ⟨_, rfl⟩ | ⟨_, rfl⟩ <;> simp at hm
  · intro e
    rw [e, z.at'.opP] at hm
    rcases hk with ⟨_, rfl⟩ | ⟨_, rfl⟩ <;> simp [Op.ports] at hm

theorem static_up {l : Link} (hl : l ∈ h.links) (hs : (h.ops l.dst).ownStaticPort = some l.dstPort) (ho : l.dst ≠ o) : l ∈ g.links := by
  obtain ⟨q1, q2⟩ := z.static_src hl hs
  have := z.link_up hl q2 ho
  rwa [z.pass_id q1] at this

theorem static_down {l : Link} (hl : l ∈ g.links) (h1 : h.live l.dst = true) (ho : l.dst ≠ o)
    (hs : (h.ops l.dst).ownStaticPort = some l.dstPort) : l ∈ h.links := by
  obtain ⟨m, m1, m2, m3, rfl⟩ := z.link_down hl (z.ne_w h1) ho (z.ne_d h1)
  obtain ⟨f1, f2, f3, f4⟩ := passOn_eq (G := G) (d := d) m
  rw [f2, f3] at hs
  rw [z.pass_id (z.static_src m1 hs).1]; exact m1

theorem ops_up {n : Nat} (h1 : h.live n = true) (hP : n ≠ P) {op : Ops.Op} (e : h.ops n = op) (q1 : op ≠ .cfg sig)
    (q2 : op ≠ .output (sumOf [row] :: other)) (q3 : op ≠ .exitBlock sig.output) : g.ops n = op ∧ n ≠ G ∧ n ≠ o ∧ n ≠ X := by
  have hG : n ≠ G := by rintro rfl; exact q1 (e ▸ z.at'.op)
  have ho : n ≠ o := by rintro rfl; exact q2 (e ▸ z.at'.opO)
  have hX : n ≠ X := by rintro rfl; exact q3 (e ▸ z.at'.opX)
  exact ⟨by rw [z.ops h1 hX hG hP ho]; exact e, hG, ho, hX⟩

theorem ops_down {n : Nat} (h1 : h.live n = true) (hX : n ≠ X) (hP : n ≠ P) {op : Ops.Op} (e : g.ops n = op)
    (q1 : op ≠ .cfg ⟨sig.input, ins⟩) (q2 : op ≠ .output sig.output) : h.ops n = op ∧ n ≠ G ∧ n ≠ o := by
  have hG : n ≠ G := by rintro rfl; exact q1 (e ▸ z.op_G)
  have ho : n ≠ o := by rintro rfl; exact q2 (e ▸ z.op_o)
  exact ⟨by rw [← z.ops h1 hX hG hP ho]; exact e, hG, ho⟩

theorem calls_up {n f : Nat} (h1 : h.live n = true) (hP : n ≠ P) {ins' args : List (Val W)}
    (hc : Calls h n ins' f args) : Calls g n ins' f args := by
  cases hc with
  | @direct _ _ _ _ l e h2' h3 h4 =>
    obtain ⟨e', _, ho, _⟩ := z.ops_up h1 hP e (by simp) (by simp) (by simp)
    exact .direct e' (z.static_up h2' (by rw [h3, e, h4]; rfl) (by rw [h3]; exact ho)) h3 h4
  | indirect e => exact .indirect (z.ops_up h1 hP e (by simp) (by simp) (by simp)).1

theorem calls_down {n f : Nat} (h1 : h.live n = true) (hX : n ≠ X) (hP : n ≠ P) {ins' args : List (Val W)}
    (hc : Calls g n ins' f args) : Calls h n ins' f args := by
  cases hc with
  | @direct _ _ _ _ l e h2' h3 h4 =>
    obtain ⟨e', _, ho⟩ := z.ops_down h1 hX hP e (by simp) (by simp)
    exact .direct e' (z.static_down h2' (by rw [h3]; exact h1) (by rw [h3]; exact ho) (by rw [h3, e', h4]; rfl)) h3 h4
  | indirect e => exact .indirect (z.ops_down h1 hX hP e (by simp) (by simp)).1

theorem leaf_up (hd : ¬ IsDefn h d) (hw : ¬ IsDefn h w) {n : Nat} (h1 : h.live n = true) (hP : n ≠ P) {ins' outs : List (Val W)}
    (hf : Leaf h S n ins' outs) : Leaf g S n ins' outs := by
  cases hf with
  | makeTuple e => exact .makeTuple (z.ops_up h1 hP e (by simp) (by simp) (by simp)).1
  | unpackTuple e q => exact .unpackTuple (z.ops_up h1 hP e (by simp) (by simp) (by simp)).1 q
  | tag e => exact .tag (z.ops_up h1 hP e (by simp) (by simp) (by simp)).1
  | @loadConstant _ _ l e q1 q2 q3 q4 =>
    obtain ⟨e', _, ho, _⟩ := z.ops_up h1 hP e (by simp) (by simp) (by simp)
    have hs : (h.ops l.dst).ownStaticPort = some l.dstPort := by rw [q2, e, q3]; rfl
    exact .loadConstant e' (z.static_up q1 hs (by rw [q2]; exact ho)) q2 q3
      (z.ops_up (z.live_link q1).1 (z.static_src q1 hs).2 q4 (by simp) (by simp) (by simp)).1
  | @loadFunction _ _ _ l e q1 q2 q3 =>
    obtain ⟨e', _, ho, _⟩ := z.ops_up h1 hP e (by simp) (by simp) (by simp)
    exact .loadFunction e' (z.static_up q1 (by rw [q2, e, q3]; rfl) (by rw [q2]; exact ho)) q2 q3
  | ext e q1 q2 q3 => exact .ext (z.ops_up h1 hP e (by simp) (by simp) (by simp)).1 q1 q2 q3
  | external q1 q2 q3 q4 =>
    obtain ⟨hG, hX⟩ : n ≠ G ∧ n ≠ X := by
      rcases calls_op q1 with ⟨_, _, _, e⟩ | ⟨_, e⟩
      · obtain ⟨_, a, _, b⟩ := z.ops_up h1 hP e (by simp) (by simp) (by simp); exact ⟨a, b⟩
      · obtain ⟨_, a, _, b⟩ := z.ops_up h1 hP e (by simp) (by simp) (by simp); exact ⟨a, b⟩
    exact .external (z.calls_up h1 hP q1) (fun h => q2 ((z.same_defn hd hw _).2 h)) (by rw [z.numOuts_eq h1 hX hG hP]; exact q3) q4
  | unknown e q2 q3 =>
    obtain ⟨e', hG, _, hX⟩ := z.ops_up h1 hP e (by simp) (by simp) (by simp)
    exact .unknown e' (by rw [z.numOuts_eq h1 hX hG hP]; exact q2) q3

theorem leaf_down (hd : ¬ IsDefn h d) (hw : ¬ IsDefn h w) {n : Nat} (h1 : h.live n = true) (hX : n ≠ X) (hP : n ≠ P)
    {ins' outs : List (Val W)} (hf : Leaf g S n ins' outs) : Leaf h S n ins' outs := by
  cases hf with
  | makeTuple e => exact .makeTuple (z.ops_down h1 hX hP e (by simp) (by simp)).1
  | unpackTuple e q => exact .unpackTuple (z.ops_down h1 hX hP e (by simp) (by simp)).1 q
  | tag e => exact .tag (z.ops_down h1 hX hP e (by simp) (by simp)).1
  | @loadConstant _ _ l e q1 q2 q3 q4 =>
    obtain ⟨e', _, ho⟩ := z.ops_down h1 hX hP e (by simp) (by simp)
    have hs : (h.ops l.dst).ownStaticPort = some l.dstPort := by rw [q2, e', q3]; rfl
    have m1 := z.static_down q1 (by rw [q2]; exact h1) (by rw [q2]; exact ho) hs
    exact .loadConstant e' m1 q2 q3
      (z.ops_down (z.live_link m1).1 (z.src_X m1) (z.static_src m1 hs).2 q4 (by simp) (by simp)).1
  | @loadFunction _ _ _ l e q1 q2 q3 =>
    obtain ⟨e', _, ho⟩ := z.ops_down h1 hX hP e (by simp) (by simp)
    exact .loadFunction e' (z.static_down q1 (by rw [q2]; exact h1) (by rw [q2]; exact ho) (by rw [q2, e', q3]; rfl)) q2 q3
  | ext e q1 q2 q3 => exact .ext (z.ops_down h1 hX hP e (by simp) (by simp)).1 q1 q2 q3
  | external q1 q2 q3 q4 =>
    have hG : n ≠ G := by
      rcases calls_op q1 with ⟨_, _, _, e⟩ | ⟨_, e⟩
      · exact (z.ops_down h1 hX hP e (by simp) (by simp)).2.1
      · exact (z.ops_down h1 hX hP e (by simp) (by simp)).2.1
    exact .external (z.calls_down h1 hX hP q1) (fun h => q2 ((z.same_defn hd hw _).1 h)) (by rw [← z.numOuts_eq h1 hX hG hP]; exact q3) q4
  | unknown e q2 q3 =>
    obtain ⟨e', hG, _⟩ := z.ops_down h1 hX hP e (by simp) (by simp)
    exact .unknown e' (by rw [← z.numOuts_eq h1 hX hG hP]; exact q2) q3

/-! ## Where things are -/

theorem kept {q n : Nat} (hG : q ≠ G) (hP : q ≠ P) (hn : n ∈ h.children q) :
    h.live n = true ∧ n ≠ X ∧ n ≠ P ∧ n ≠ o ∧ (q ≠ p → n ≠ G) := by
  have hu := z.child_up hn
  refine ⟨z.child_live hn, ?_, ?_, ?_, ?_⟩
  · rintro rfl; rw [z.at'.upX] at hu; exact hG (Option.some.inj hu).symm
  · rintro rfl; rw [z.at'.upP] at hu; exact hG (Option.some.inj hu).symm
  · rintro rfl; rw [z.at'.upO] at hu; exact hP (Option.some.inj hu).symm
  · rintro hp rfl; rw [z.at'.parent] at hu; exact hp (Option.some.inj hu).symm

theorem kept_P {n : Nat} (hn : n ∈ h.children P) :
    h.live n = true ∧ n ≠ X ∧ n ≠ P ∧ n ≠ G := by
  obtain ⟨q1, q2, q3, _⟩ := z.at'.not_in (z.child_up hn) (.refl _)
  exact ⟨z.child_live hn, q3, q2, q1⟩

theorem child_loc {q n : Nat} (hG : q ≠ G) (hn : h.hier.parent n = some q) : Above h.hier.parent n P ↔ Above h.hier.parent q P := by
  constructor
  · intro ha
    refine z.in_parent ha ?_ hn
    rintro rfl; rw [z.at'.upP] at hn; exact hG (Option.some.inj hn).symm
  · intro ha; exact (z.in_child hn ha).1

theorem G_out : ¬ Above h.hier.parent G P := z.tree.acyclic _ _ z.at'.upP

theorem block_out {b : Nat} (hb : h.hier.parent b = some G) (hP : b ≠ P) : ¬ Above h.hier.parent b P := fun ha =>
  z.G_out (z.in_parent ha hP hb)

theorem in_live {x : Nat} (ha : Above h.hier.parent x P) (hx : x ≠ P) : h.live x = true := by
  rcases above_cases ha with e | ⟨q, hq, _⟩
  · exact absurd e hx
  · exact (z.tree.parent_live _ _ hq).1

/-- Control stays in a control-flow graph. -/
theorem flow_parent {l : Link} (hl : l ∈ h.links) {x y : List Types.Ty} {r : List (List Types.Ty)}
    (hop : h.ops l.src = .dataflowBlock x y r) : ∃ q, h.hier.parent l.src = some q ∧ h.hier.parent l.dst = some q := by
  obtain ⟨kind, k1, _, q, hq, hor⟩ := z.valid.kinds l hl
  have hk : kind = .controlFlow := by
    unfold srcKind at k1
    rw [hop] at k1
    have := List.mem_of_getElem? k1
    simp only [Op.ports, List.mem_map] at this
    obtain ⟨_, _, e⟩ := this; exact e.symm
  subst hk
  rcases hor with h1 | ⟨_, _, _, _, ⟨h2, _⟩ | ⟨⟨t, h2, _⟩, _⟩⟩
  · exact ⟨q, hq, h1⟩
  · cases h2
  · cases h2

theorem exit_is {c : Nat} {ts : List Types.Ty} (hc : h.hier.parent c = some G) (hop : h.ops c = .exitBlock ts) : c = X := by
  have hk := z.valid.children G z.at'.liveG
  unfold ChildrenOk at hk
  rw [z.at'.op] at hk
  obtain ⟨entry, exit, rest, o', r, h1, h2, h3, h4⟩ := hk
  rw [z.at'.children] at h1; cases h1
  have hm : c ∈ h.children G := (z.tree.child_iff _ _).2 hc
  rw [z.at'.children] at hm
  rcases List.mem_cons.1 hm with rfl | hm
  · rw [h2] at hop; cases hop
  · rcases List.mem_cons.1 hm with rfl | hm
    · rfl
    · exact absurd hop (h4 c hm ts)

theorem p_not {op : Ops.Op} (e : h.ops p = op) : (∀ s, op ≠ .cfg s) ∧ ∀ x y v, op ≠ .conditional x y v := by
  have hc := z.valid.contains G p z.at'.parent
  rw [z.at'.op, e] at hc
  constructor
  · rintro s rfl; exact hc
  · rintro x y v rfl; exact hc

theorem G_inner {i' o' : Nat} (hio : HasIO h p i' o') : G ∈ h.children p ∧ G ≠ i' ∧ G ≠ o' := by
  refine ⟨(z.tree.child_iff _ _).2 z.at'.parent, ?_⟩
  have hcon := z.valid.contains G p z.at'.parent
  rw [z.at'.op] at hcon
  have hc := z.valid.children p z.live_p
  obtain ⟨r, hio⟩ := hio
  have key : ∀ {a b : List Types.Ty}, (∃ inp out rest, h.children p = inp :: out :: rest ∧
      h.ops inp = .input a ∧ h.ops out = .output b ∧ ∀ c ∈ rest, ¬ IsIO (h.ops c)) → G ≠ i' ∧ G ≠ o' := by
    rintro a b ⟨inp, out, rest, h1, h2, h3, _⟩
    rw [hio] at h1; cases h1
    constructor
    · rintro rfl; rw [z.at'.op] at h2; cases h2
    · rintro rfl; rw [z.at'.op] at h3; cases h3
  unfold ChildrenOk at hc
  cases hop : h.ops p with
  | funcDefn a b => rw [hop] at hc; exact key hc
  | dfg a => rw [hop] at hc; exact key hc
  | case a => rw [hop] at hc; exact key hc
  | tailLoop a b c => rw [hop] at hc; exact key hc
  | dataflowBlock a b c => rw [hop] at hc; exact key hc
  | _ => rw [hop] at hcon; simp [MayContain, body] at hcon

theorem inner_iff {n : Nat} : Inner g d i o n ↔ Inner h P i o n ∨ n = w := by
  have hiw := z.ne_w z.live_i
  have how := z.ne_w z.at'.live_o
  unfold Inner
  rw [z.kids_d, z.at'.inside]
  constructor
  · rintro ⟨h1, h2, h3⟩
    simp only [List.mem_cons, List.mem_append, List.not_mem_nil, or_false] at h1
    rcases h1 with h1 | h1 | h1 | h1
    · exact absurd h1 h2
    · exact absurd h1 h3
    · exact .inl ⟨by simp [h1], h2, h3⟩
    · exact .inr h1
  · rintro (⟨h1, h2, h3⟩ | rfl)
    · refine ⟨?_, h2, h3⟩
      simp only [List.mem_cons] at h1
      simp only [List.mem_cons, List.mem_append]
      tauto
    · exact ⟨by simp, Ne.symm hiw, Ne.symm how⟩

theorem mem_d {n : Nat} : n ∈ g.children d ↔ n ∈ h.children P ∨ n = w := by
  rw [z.kids_d, z.at'.inside]
  simp only [List.mem_cons, List.mem_append, List.not_mem_nil, or_false]
  tauto

theorem numIns_d : numIns (g.ops d) = ins.length := by
  rw [z.op_d]
  simp [numIns, Op.ports, List.filter_append, List.filter_map, Kind.isValue, Function.comp_def]

theorem numOuts_i : numOuts (g.ops i) = ins.length := by
  obtain ⟨k1, k2, k3, k4⟩ := z.kept_P (n := i) (by rw [z.at'.inside]; simp)
  rw [z.numOuts_eq k1 k2 k4 k3, z.at'.opI, IsBody.numOuts_input]

theorem numIns_o : numIns (g.ops o) = row.length + other.length := by
  rw [z.op_o, IsBody.numIns_output, z.at'.outs, List.length_append]

/-- What the new node does. -/
theorem unpack_runs {ρ : Wires W} {ins' outs : List (Val W)} (hr : Runs g S (.node ρ w ins' outs)) :
    ins' = [.sum 0 outs] ∧ outs.length = row.length := (IsBody.runs_unpackTuple z.op_w).1 hr

theorem agree_in {σ σ' : Wires W} {n : Nat} (ha : AgreeIn h P σ σ') (hn : Above h.hier.parent n P) : AgreeAt h G P d w n σ σ' :=
  ⟨fun _ => ha, fun hc => absurd hn hc⟩

end MovesLast

/-- What a run before becomes. -/
def Splits (h g : Hugr Ops.Op Meta) (S : Sem W K) (G P d w len : Nat) : Task W → Prop
  | .graph ρ q vals outs σ =>
    (q ≠ G → q ≠ P → ∀ ρ', AgreeAt h G P d w q ρ ρ' →
      ∃ σ', AgreeAt h G P d w q σ σ' ∧ Runs g S (.graph ρ' q vals outs σ')) ∧
    (q = P → ∀ elems others, outs = .sum 0 elems :: others → elems.length = len → ∀ ρ', AgreeIn h P ρ ρ' →
      ∃ σ', Runs g S (.graph ρ' d vals (elems ++ others) σ'))
  | .node ρ n ins outs =>
    (h.live n = true → n ≠ G → n ≠ P → ∀ ρ', AgreeAt h G P d w n ρ ρ' → Runs g S (.node ρ' n ins outs)) ∧
    (n = G → ∃ mid, (∀ ρ', AgreeAt h G P d w n ρ ρ' → Runs g S (.node ρ' n ins mid)) ∧
      ∀ ρ', AgreeIn h P ρ ρ' → ∃ σ', Runs g S (.graph ρ' d mid outs σ'))
  | .loop ρ n ins outs =>
    h.live n = true → n ≠ P → ∀ ρ', AgreeAt h G P d w n ρ ρ' → Runs g S (.loop ρ' n ins outs)
  | .blocks ρ b ins outs =>
    (h.live b = true → b ≠ P → h.hier.parent b ≠ some G → ∀ ρ', AgreeAt h G P d w b ρ ρ' →
      Runs g S (.blocks ρ' b ins outs)) ∧
    (b ≠ P → h.hier.parent b = some G → ∃ mid, (∀ ρ', AgreeAt h G P d w b ρ ρ' → Runs g S (.blocks ρ' b ins mid)) ∧
      ∀ ρ', AgreeIn h P ρ ρ' → ∃ σ', Runs g S (.graph ρ' d mid outs σ')) ∧
    (b = P → ∀ ρ', AgreeIn h P ρ ρ' → ∃ σ', Runs g S (.graph ρ' d ins outs σ'))

namespace MovesLast

variable {p G E X P i o d w : Nat} {more inner : List Nat} {sig : Types.Signature} {ins row other : List Types.Ty}
  (z : MovesLast C h g p G E X P i o d w more inner sig ins row other)
include z

/-- A block leaves what is inside `P` alone. -/
theorem in_same {ρ σ : Wires W} {b : Nat} {vals outs : List (Val W)} (hb : h.hier.parent b = some G) (hP : b ≠ P)
    (hr : Runs h S (.graph ρ b vals outs σ)) : AgreeIn h P ρ σ := by
  intro x x1 x2
  refine graph_frame hr x fun hx => ?_
  exact z.block_out hb hP (z.in_parent x1 x2 (z.child_up hx))

theorem same_level {l : Link} (hl : l ∈ h.links) {x y : List Types.Ty} {r : List (List Types.Ty)}
    (hop : h.ops l.src = .dataflowBlock x y r) (hG : h.hier.parent l.src ≠ some G) :
    h.hier.parent l.dst ≠ some G ∧ l.dst ≠ P ∧ l.dst ≠ X ∧ (Above h.hier.parent l.dst P ↔ Above h.hier.parent l.src P) := by
  obtain ⟨q, h1, h2⟩ := z.flow_parent hl hop
  have hq : q ≠ G := by rintro rfl; exact hG h1
  refine ⟨by rw [h2, ← h1]; exact hG, ?_, ?_, ?_⟩
  · intro e; rw [e, z.at'.upP] at h2; exact hq (Option.some.inj h2).symm
  · intro e; rw [e, z.at'.upX] at h2; exact hq (Option.some.inj h2).symm
  · rw [z.child_loc hq h1, z.child_loc hq h2]

theorem up_run (hd : ¬ IsDefn h d) (hw : ¬ IsDefn h w) {t : Task W} (hr : Runs h S t) : Splits h g S G P d w row.length t := by
  induction hr with
  | @graph ρ σ q i' o' vals res ins' outs h1 h2 h3 h4 h5 h6 h7 h8 h9 h10 ih =>
    have hmem := Extra.hasIO_mem h1
    have hql : h.live q = true := (z.tree.parent_live _ _ (z.child_up hmem.1)).2
    have hqX : q ≠ X := by rintro rfl; exact z.at'.X_leaf (z.child_up hmem.1)
    refine ⟨fun hG hP ρ' hρ => ?_, ?_⟩
    · have kept := fun n hn => z.kept (n := n) hG hP hn
      have loc : ∀ {n}, n ∈ h.children q → (Above h.hier.parent n P ↔ Above h.hier.parent q P) := fun hn =>
        z.child_loc hG (z.child_up hn)
      by_cases hp : q = p
      · subst hp
        obtain ⟨g1, g2, g3⟩ := z.G_inner h1
        have hGin : Inner h q i' o' G := ⟨g1, g2, g3⟩
        obtain ⟨mid, hm1, hm2⟩ := (ih G hGin).2 rfl
        have hmlen : mid.length = ins.length := by
          obtain ⟨_, hr⟩ := hm2 σ fun _ _ _ => rfl
          rw [graph_vals ⟨_, z.kids_d⟩ hr, z.numOuts_i]
        let σ' : Wires W := fun n => if n = G then outWires mid else if n = d then σ G else if n ∈ h.children q then σ n else ρ' n
        have dG : d ≠ G := Ne.symm (z.ne_d z.at'.liveG)
        have sG : σ' G = outWires mid := by simp only [σ', if_pos]
        have sd : σ' d = σ G := by simp only [σ', if_neg dG, if_pos]
        have sk : ∀ n, n ∈ h.children q → n ≠ G → σ' n = σ n := by
          intro n hn h1
          simp only [σ', if_neg h1, if_neg (z.ne_d (kept n hn).1), if_pos hn]
        have so : ∀ n, n ∉ h.children q → n ≠ G → n ≠ d → σ' n = ρ' n := by
          intro n hn h1 h2
          simp only [σ', if_neg h1, if_neg h2, if_neg hn]
        have hqP : ¬ Above h.hier.parent q P := z.not_P
        have hσ : AgreeAt h G P d w q σ σ' := by
          refine ⟨fun hc => absurd hc hqP, fun _ => ⟨fun x x1 x2 x3 => ?_, sd⟩⟩
          by_cases hx : x ∈ h.children q
          · exact sk x hx x1
          · rw [so x hx x1 x2, h2 x hx]; exact (hρ.2 hqP).1 x x1 x2 x3
        have hkids := z.kids_p
        have hin : ∀ {n}, Inner g q i' o' n → n = d ∨ (Inner h q i' o' n ∧ n ≠ d) := by
          intro n hn
          have := hn.1
          rw [hkids, List.mem_append, List.mem_singleton] at this
          by_cases e : n = d
          · exact .inl e
          · exact .inr ⟨⟨this.resolve_right e, hn.2⟩, e⟩
        refine ⟨σ', hσ, .graph (ins := fun n => if n = d then mid else ins' n)
          (outs := fun n => if n = G then mid else if n = d then outs G else outs n) (i := i') (o := o') ?_ ?_ ?_ ?_ ?_ ?_ ?_ ?_ ?_ ?_⟩
        · obtain ⟨r, h1⟩ := h1
          exact ⟨r ++ [d], by rw [hkids, h1]; rfl⟩
        · intro n hn
          rw [hkids, List.mem_append, List.mem_singleton] at hn
          push Not at hn
          exact so n hn.1 (fun e => hn.1 (e ▸ g1)) hn.2
        · rw [sk i' hmem.1 (Ne.symm g2)]; exact h3
        · obtain ⟨k1, k2, k3, _⟩ := kept i' hmem.1
          rw [z.numOuts_eq k1 k2 (Ne.symm g2) k3]; exact h4
        · rw [sk o' hmem.2 (Ne.symm g3)]; exact h5
        · intro n hn
          rcases hin hn with rfl | ⟨hn, hnd⟩
          · simp only [if_pos]
            refine ⟨by rw [z.numIns_d]; exact hmlen, fun k v hk => ?_⟩
            have hk' := (List.getElem?_eq_some_iff.1 hk).1
            refine ⟨⟨G, k, n, k⟩, z.mem_links.2 (.inr (.inr ⟨k, by omega, rfl⟩)), rfl, rfl, ?_⟩
            change σ' G k = some v
            rw [sG]; exact hk
          · simp only [if_neg hnd]
            obtain ⟨k1, k2, k3, k4, _⟩ := kept n hn.1
            exact z.ready_up k1 k2 k4 k3 (hσ.congr (loc hn.1)) (h6 n hn)
        · intro n hn
          by_cases e : n = G
          · rw [e]; simp only [if_pos]; exact sG
          · simp only [if_neg e]
            rcases hin hn with rfl | ⟨hn, hnd⟩
            · simp only [if_pos]; rw [sd]; exact h7 G hGin
            · simp only [if_neg hnd]; rw [sk n hn.1 e]; exact h7 n hn
        · intro n hn
          by_cases e : n = G
          · rw [e]; simp only [if_pos]
            rw [z.op_G, numOuts_cfg]; exact hmlen
          · simp only [if_neg e]
            rcases hin hn with rfl | ⟨hn, hnd⟩
            · simp only [if_pos]
              rw [h8 G hGin]; unfold numOuts; rw [z.out_d]
            · simp only [if_neg hnd]
              obtain ⟨k1, k2, k3, _⟩ := kept n hn.1
              rw [z.numOuts_eq k1 k2 e k3]; exact h8 n hn
        · intro n hn
          by_cases e : n = G
          · rw [e]; simp only [if_pos, if_neg (Ne.symm dG)]
            exact hm1 σ' (hσ.congr (loc g1))
          · simp only [if_neg e]
            rcases hin hn with rfl | ⟨hn, hnd⟩
            · simp only [if_pos]
              obtain ⟨σ'', hr⟩ := hm2 σ' fun x x1 x2 => by
                have xl := z.in_live x1 x2
                exact (hσ.2 hqP).1 x (z.in_ne x1 x2).1 (z.ne_d xl) (z.ne_w xl)
              exact .dfg z.op_d hr
            · simp only [if_neg hnd]
              obtain ⟨k1, k2, k3, _⟩ := kept n hn.1
              exact (ih n hn).1 k1 e k3 σ' (hσ.congr (loc hn.1))
        · obtain ⟨k1, k2, k3, k4, _⟩ := kept o' hmem.2
          exact z.ready_up k1 k2 k4 k3 (hσ.congr (loc hmem.2)) h10
      · have hkids := z.kids hql hqX hG hP hp
        have hGk : G ∉ h.children q := fun hc => (kept _ hc).2.2.2.2 hp rfl
        have hdk : d ∉ h.children q := fun hc => z.ne_d (kept _ hc).1 rfl
        let σ' : Wires W := fun n => if n ∈ h.children q then σ n else ρ' n
        have sk : ∀ n, n ∈ h.children q → σ' n = σ n := fun n hn => by simp only [σ', if_pos hn]
        have so : ∀ n, n ∉ h.children q → σ' n = ρ' n := fun n hn => by simp only [σ', if_neg hn]
        have hσ : AgreeAt h G P d w q σ σ' := by
          refine ⟨fun hin x x1 x2 => ?_, fun hout => ⟨fun x x1 x2 x3 => ?_, ?_⟩⟩
          · by_cases hx : x ∈ h.children q
            · exact sk x hx
            · rw [so x hx, h2 x hx]; exact hρ.1 hin x x1 x2
          · by_cases hx : x ∈ h.children q
            · exact sk x hx
            · rw [so x hx, h2 x hx]; exact (hρ.2 hout).1 x x1 x2 x3
          · rw [so d hdk, h2 G hGk]; exact (hρ.2 hout).2
        have hin : ∀ {n}, Inner g q i' o' n → Inner h q i' o' n := fun h => ⟨by rw [← hkids]; exact h.1, h.2⟩
        refine ⟨σ', hσ, .graph (ins := ins') (outs := outs) (i := i') (o := o') ?_ ?_ ?_ ?_ ?_ ?_ ?_ ?_ ?_ ?_⟩
        · unfold HasIO; rw [hkids]; exact h1
        · intro n hn
          rw [hkids] at hn; exact so n hn
        · rw [sk i' hmem.1]; exact h3
        · obtain ⟨k1, k2, k3, _, k5⟩ := kept i' hmem.1
          rw [z.numOuts_eq k1 k2 (k5 hp) k3]; exact h4
        · rw [sk o' hmem.2]; exact h5
        · intro n hn
          obtain ⟨k1, k2, k3, k4, _⟩ := kept n (hin hn).1
          exact z.ready_up k1 k2 k4 k3 (hσ.congr (loc (hin hn).1)) (h6 n (hin hn))
        · intro n hn
          rw [sk n (hin hn).1]; exact h7 n (hin hn)
        · intro n hn
          obtain ⟨k1, k2, k3, _, k5⟩ := kept n (hin hn).1
          rw [z.numOuts_eq k1 k2 (k5 hp) k3]; exact h8 n (hin hn)
        · intro n hn
          obtain ⟨k1, k2, k3, _, k5⟩ := kept n (hin hn).1
          exact (ih n (hin hn)).1 k1 (k5 hp) k3 σ' (hσ.congr (loc (hin hn).1))
        · obtain ⟨k1, k2, k3, k4, _⟩ := kept o' hmem.2
          exact z.ready_up k1 k2 k4 k3 (hσ.congr (loc hmem.2)) h10
    · rintro rfl elems others rfl hlen ρ' hρ
      obtain ⟨rest, hio⟩ := h1
      rw [z.at'.inside] at hio
      cases hio
      let σ' : Wires W := fun n => if n = w then outWires elems else if n ∈ h.children q then σ n else ρ' n
      have sw : σ' w = outWires elems := by simp only [σ', if_pos]
      have sk : ∀ n, n ∈ h.children q → σ' n = σ n := fun n hn => by
        simp only [σ', if_neg (z.ne_w (z.child_live hn)), if_pos hn]
      have so : ∀ n, n ∉ h.children q → n ≠ w → σ' n = ρ' n := fun n hn h1 => by simp only [σ', if_neg h1, if_neg hn]
      have hσ : AgreeIn h q σ σ' := by
        intro x x1 x2
        by_cases hx : x ∈ h.children q
        · exact sk x hx
        · rw [so x hx (z.ne_w (z.in_live x1 x2)), h2 x hx]; exact hρ x x1 x2
      have inn : ∀ {n}, n ∈ h.children q → Above h.hier.parent n q := fun hn => .of_parent (z.child_up hn)
      have hoq : o ∈ h.children q := by rw [z.at'.inside]; simp
      have srcs : ∀ {l}, l ∈ h.links → l.dst = o → l.dstPort < other.length + 1 →
          (∃ m ∈ g.links, m.srcPort = l.srcPort ∧ m.src = l.src ∧ m.dst = (redirect o w row.length l).dst ∧
            m.dstPort = (redirect o w row.length l).dstPort) ∧ σ' l.src = σ l.src := by
        intro l l1 l2 l3
        obtain ⟨s1, s2⟩ := z.from_in l1 (by rw [l2]; exact inn hoq) (by rw [l2]; exact z.oP)
          (by rw [l2, z.at'.opO, IsBody.numIns_output]; simpa using l3)
        obtain ⟨f1, f2, f3, f4⟩ := moved_eq (G := G) (d := d) (o := o) (w := w) (len := row.length) l
        rw [if_neg (z.in_ne s1 s2).1] at f2
        exact ⟨⟨_, z.mem_links.2 (.inl ⟨l, l1, s2, rfl⟩), f1, f2, f3, f4⟩, hσ _ s1 s2⟩
      have hlo : others.length = other.length := by
        have := h10.1
        rw [z.at'.opO, IsBody.numIns_output] at this
        simpa using this
      refine ⟨σ', .graph (ins := fun n => if n = w then [.sum 0 elems] else ins' n)
        (outs := fun n => if n = w then elems else outs n) ⟨_, z.kids_d⟩ ?_ ?_ ?_ ?_ ?_ ?_ ?_ ?_ ?_⟩
      · intro n hn
        rw [z.mem_d] at hn
        push Not at hn
        exact so n hn.1 hn.2
      · rw [sk i hmem.1]; exact h3
      · obtain ⟨k1, k2, k3, k4⟩ := z.kept_P hmem.1
        rw [z.numOuts_eq k1 k2 k4 k3]; exact h4
      · rw [sk o hmem.2]; exact h5
      · intro n hn
        rcases z.inner_iff.1 hn with hn | rfl
        · obtain ⟨k1, k2, k3, k4⟩ := z.kept_P hn.1
          simp only [if_neg (z.ne_w k1)]
          exact z.ready_up k1 k2 hn.2.2 k3 (z.agree_in hσ (inn hn.1)) (h6 n hn)
        · simp only [if_pos]
          refine ⟨by rw [z.op_w, unpackOp, IsBody.numIns_ext]; rfl, fun k v hk => ?_⟩
          rcases k with _ | k
          · cases hk
            obtain ⟨l, l1, l2, l3, l4⟩ := h10.2 0 _ rfl
            obtain ⟨⟨m, m1, m2, m3, m4, m5⟩, s⟩ := srcs l1 l2 (by omega)
            refine ⟨m, m1, ?_⟩
            rw [m2, m3, m4, m5, s]
            rcases redirect_dst (o := o) (w := n) (len := row.length) l with ⟨e', e⟩ | ⟨e', e0, e⟩ | ⟨e', j, ej, e⟩
            · exact absurd l2 e'
            · rw [e]
              exact ⟨rfl, rfl, l4⟩
            · rw [l3] at ej; cases ej
          · simp at hk
      · intro n hn
        rcases z.inner_iff.1 hn with hn | rfl
        · simp only [if_neg (z.ne_w (z.kept_P hn.1).1)]
          rw [sk n hn.1]; exact h7 n hn
        · simp only [if_pos]; exact sw
      · intro n hn
        rcases z.inner_iff.1 hn with hn | rfl
        · obtain ⟨k1, k2, k3, k4⟩ := z.kept_P hn.1
          simp only [if_neg (z.ne_w k1)]
          rw [z.numOuts_eq k1 k2 k4 k3]; exact h8 n hn
        · simp only [if_pos]
          rw [z.op_w, unpackOp, IsBody.numOuts_ext]; exact hlen
      · intro n hn
        rcases z.inner_iff.1 hn with hn | rfl
        · obtain ⟨k1, k2, k3, k4⟩ := z.kept_P hn.1
          simp only [if_neg (z.ne_w k1)]
          exact (ih n hn).1 k1 k4 k3 σ' (z.agree_in hσ (inn hn.1))
        · simp only [if_pos]
          exact .leaf (.unpackTuple z.op_w hlen)
      · refine ⟨by rw [z.numIns_o]; simp [hlen, hlo], fun k v hk => ?_⟩
        by_cases hlt : k < row.length
        · refine ⟨⟨w, k, o, k⟩, z.mem_links.2 (.inr (.inl ⟨k, hlt, rfl⟩)), rfl, rfl, ?_⟩
          change σ' w k = some v
          rw [sw, outWires, ← hk, List.getElem?_append_left (by omega)]
        · obtain ⟨j, rfl⟩ : ∃ j, k = row.length + j := ⟨k - row.length, by omega⟩
          rw [List.getElem?_append_right (by omega), hlen, Nat.add_sub_cancel_left] at hk
          have hj := (List.getElem?_eq_some_iff.1 hk).1
          obtain ⟨l, l1, l2, l3, l4⟩ := h10.2 (j + 1) v (by simpa using hk)
          obtain ⟨⟨m, m1, m2, m3, m4, m5⟩, s⟩ := srcs l1 l2 (by omega)
          refine ⟨m, m1, ?_⟩
          rw [m2, m3, m4, m5, s]
          rcases redirect_dst (o := o) (w := w) (len := row.length) l with ⟨e', e⟩ | ⟨e', e0, e⟩ | ⟨e', j', ej, e⟩
          · exact absurd l2 e'
          · rw [l3] at e0; cases e0
          · rw [l3] at ej; cases ej
            rw [e]
            exact ⟨rfl, rfl, l4⟩
  | leaf h1 =>
    refine ⟨fun k1 _ k3 ρ' _ => .leaf (z.leaf_up hd hw k1 k3 h1), ?_⟩
    rintro rfl
    exact absurd h1 (leaf_not (.inl ⟨_, z.at'.op⟩))
  | const h1 =>
    refine ⟨fun k1 _ k3 ρ' _ => .const (z.ops_up k1 k3 h1 (by simp) (by simp) (by simp)).1, ?_⟩
    rintro rfl; rw [z.at'.op] at h1; cases h1
  | dfg h1 _ ih =>
    refine ⟨fun k1 k2 k3 ρ' hρ => ?_, ?_⟩
    · obtain ⟨e, _⟩ := z.ops_up k1 k3 h1 (by simp) (by simp) (by simp)
      obtain ⟨σ', _, hr⟩ := ih.1 k2 k3 ρ' hρ
      exact .dfg e hr
    · rintro rfl; rw [z.at'.op] at h1; cases h1
  | @cond _ _ n c _ _ _ _ _ _ _ _ h1 h2 h3 h4 _ ih =>
    refine ⟨fun k1 k2 k3 ρ' hρ => ?_, ?_⟩
    · obtain ⟨e, _, _, hX⟩ := z.ops_up k1 k3 h1 (by simp) (by simp) (by simp)
      have hc := List.mem_of_getElem? h2
      have hp : n ≠ p := by rintro rfl; exact (z.p_not h1).2 _ _ _ rfl
      obtain ⟨_, _, c3, _, c5⟩ := z.kept k2 k3 hc
      obtain ⟨σ', _, hr⟩ := ih.1 (c5 hp) c3 ρ' (hρ.congr (z.child_loc k2 (z.child_up hc)))
      exact .cond e (by rw [z.kids k1 hX k2 k3 hp]; exact h2) h3 h4 hr
    · rintro rfl; rw [z.at'.op] at h1; cases h1
  | tailLoop h1 _ ih =>
    refine ⟨fun k1 k2 k3 ρ' hρ => .tailLoop (z.ops_up k1 k3 h1 (by simp) (by simp) (by simp)).1 (ih k1 k3 ρ' hρ), ?_⟩
    rintro rfl; rw [z.at'.op] at h1; cases h1
  | again h1 h2 _ _ ih1 ih2 =>
    intro k1 k2 ρ' hρ
    obtain ⟨e, hG, _⟩ := z.ops_up k1 k2 h1 (by simp) (by simp) (by simp)
    obtain ⟨σ', _, hr⟩ := ih1.1 hG k2 ρ' hρ
    exact .again e h2 hr (ih2 k1 k2 ρ' hρ)
  | done h1 h2 _ ih =>
    intro k1 k2 ρ' hρ
    obtain ⟨e, hG, _⟩ := z.ops_up k1 k2 h1 (by simp) (by simp) (by simp)
    obtain ⟨σ', _, hr⟩ := ih.1 hG k2 ρ' hρ
    exact .done e h2 hr
  | @cfg ρ n entry _ sg _ _ h1 h2 _ ih =>
    refine ⟨fun k1 k2 k3 ρ' hρ => ?_, ?_⟩
    · have ho : n ≠ o := by rintro rfl; rw [z.at'.opO] at h1; cases h1
      have hX : n ≠ X := by rintro rfl; rw [z.at'.opX] at h1; cases h1
      have hp : n ≠ p := by rintro rfl; exact (z.p_not h1).1 _ rfl
      have hc : entry ∈ h.children n := by rw [h2]; simp
      obtain ⟨c1, c2, c3, _⟩ := z.kept k2 k3 hc
      have hu := z.child_up hc
      exact .cfg (by rw [z.ops k1 hX k2 k3 ho]; exact h1) (by rw [z.kids k1 hX k2 k3 hp]; exact h2)
        (ih.1 c1 c3 (by rw [hu]; exact fun e => k2 (Option.some.inj e)) ρ' (hρ.congr (z.child_loc k2 hu)))
    · rintro rfl
      rw [z.at'.children] at h2; cases h2
      have hE := z.block_out z.at'.upE z.at'.EP
      obtain ⟨mid, m1, m2⟩ := ih.2.1 z.at'.EP z.at'.upE
      exact ⟨mid, fun ρ' hρ => .cfg z.op_G z.kids_G (m1 ρ' (hρ.congr ⟨fun h => absurd h hE, fun h => absurd h z.G_out⟩)), m2⟩
  | @jump ρ σ b _ _ _ _ _ _ _ _ _ _ _ _ l h1 h2 h3 h4 h5 h6 h7 hr1 _ ih1 ih2 =>
    subst h5
    refine ⟨fun k1 k2 k3 ρ' hρ => ?_, fun k2 k3 => ?_, fun k => ?_⟩
    · obtain ⟨e, hG, _⟩ := z.ops_up k1 k2 h1 (by simp) (by simp) (by simp)
      obtain ⟨σ', hσ, hr⟩ := ih1.1 hG k2 ρ' hρ
      obtain ⟨d1, d2, _, d3⟩ := z.same_level h4 h1 k3
      have hl := (z.live_link h4).2
      obtain ⟨e', _, ho, _⟩ := z.ops_up hl d2 h7 (by simp) (by simp) (by simp)
      have hm := z.link_up h4 k2 ho
      rw [z.pass_id hG] at hm
      exact .jump e h2 h3 hm rfl h6 e' hr (ih2.1 hl d2 d1 σ' (hσ.congr d3))
    · obtain ⟨e, hG, _⟩ := z.ops_up (z.live_link h4).1 k2 h1 (by simp) (by simp) (by simp)
      have hud : h.hier.parent l.dst = some G := by
        obtain ⟨q, q1, q2⟩ := z.flow_parent h4 h1
        rw [q2, ← q1]; exact k3
      have hbo := z.block_out k3 k2
      have hsame := z.in_same k3 k2 hr1
      have ho : l.dst ≠ o := by intro e; rw [e, z.at'.opO] at h7; cases h7
      have hm := z.link_up h4 k2 ho
      rw [z.pass_id hG] at hm
      by_cases hdP : l.dst = P
      · refine ⟨_, fun ρ' hρ => ?_, fun ρ' hρ => ih2.2.2 hdP ρ' fun x x1 x2 => by rw [hρ x x1 x2, hsame x x1 x2]⟩
        obtain ⟨σ', _, hr⟩ := ih1.1 hG k2 ρ' hρ
        exact .exit e h2 h3 hm rfl h6 (by rw [hdP]; exact z.op_P) hr
      · obtain ⟨e', _⟩ := z.ops_up (z.live_link h4).2 hdP h7 (by simp) (by simp) (by simp)
        obtain ⟨mid, m1, m2⟩ := ih2.2.1 hdP hud
        refine ⟨mid, fun ρ' hρ => ?_, fun ρ' hρ => m2 ρ' fun x x1 x2 => by rw [hρ x x1 x2, hsame x x1 x2]⟩
        obtain ⟨σ', hσ, hr⟩ := ih1.1 hG k2 ρ' hρ
        have hdo := z.block_out hud hdP
        exact .jump e h2 h3 hm rfl h6 e' hr (m1 σ' (hσ.congr ⟨fun h => absurd h hdo, fun h => absurd h hbo⟩))
    · have := z.at'.succ l h4 k
      rw [this, z.at'.opX] at h7; cases h7
  | @exit _ _ b tag _ _ _ _ _ _ _ _ l h1 h2 h3 h4 h5 h6 h7 _ ih =>
    subst h5
    refine ⟨fun k1 k2 k3 ρ' hρ => ?_, fun k2 k3 => ?_, fun k ρ' hρ => ?_⟩
    · obtain ⟨e, hG, _⟩ := z.ops_up k1 k2 h1 (by simp) (by simp) (by simp)
      obtain ⟨σ', hσ, hr⟩ := ih.1 hG k2 ρ' hρ
      obtain ⟨d1, d2, dX, _⟩ := z.same_level h4 h1 k3
      have ho : l.dst ≠ o := by intro e; rw [e, z.at'.opO] at h7; cases h7
      have hdG : l.dst ≠ G := by intro e; rw [e, z.at'.op] at h7; cases h7
      have hm := z.link_up h4 k2 ho
      rw [z.pass_id hG] at hm
      exact .exit e h2 h3 hm rfl h6 (by rw [z.ops (z.live_link h4).2 dX hdG d2 ho]; exact h7) hr
    · exfalso
      obtain ⟨q, q1, q2⟩ := z.flow_parent h4 h1
      rw [← q1, k3] at q2
      have := z.at'.pred l h4 (z.exit_is q2 h7)
      rw [this] at k2; exact k2 rfl
    · rw [k, z.at'.opP] at h1; cases h1
      rcases tag with _ | tag
      · cases h2
        exact ih.2 k _ _ rfl h3 ρ' hρ
      · simp at h2
  | @call _ _ n f _ _ _ h1 h2 h3 _ ih =>
    refine ⟨fun k1 k2 k3 ρ' _ => ?_, ?_⟩
    · obtain ⟨_, _, e⟩ := id h2
      have hfG : f ≠ G := by rintro rfl; rw [z.at'.op] at e; cases e
      have hfP : f ≠ P := by rintro rfl; rw [z.at'.opP] at e; cases e
      have hX : n ≠ X := by
        rcases calls_op h1 with ⟨_, _, _, e⟩ | ⟨_, e⟩ <;> (rintro rfl; rw [z.at'.opX] at e; cases e)
      obtain ⟨σ', _, hr⟩ := ih.1 hfG hfP noWires .none
      exact .call (z.calls_up k1 k3 h1) ((z.same_defn hd hw f).1 h2) (by rw [z.numOuts_eq k1 hX k2 k3]; exact h3) hr
    · rintro rfl
      rcases calls_op h1 with ⟨_, _, _, e⟩ | ⟨_, e⟩ <;> (rw [z.at'.op] at e; cases e)

end MovesLast

/-- From the values `mid`, the last block ends with `fin`. -/
def Ends (h : Hugr Ops.Op Meta) (S : Sem W K) (P len : Nat) (ρ : Wires W) (mid fin : List (Val W)) : Prop :=
  ∃ elems others σ, fin = elems ++ others ∧ elems.length = len ∧ Runs h S (.graph ρ P mid (.sum 0 elems :: others) σ)

/-- What a run after comes from. -/
def Joins (h : Hugr Ops.Op Meta) (S : Sem W K) (G X P d w len : Nat) : Task W → Prop
  | .graph ρ' q vals outs σ' =>
    (q ≠ G → q ≠ P → q ≠ d → ∀ ρ, AgreeAt h G P d w q ρ ρ' →
      ∃ σ, AgreeAt h G P d w q σ σ' ∧ Runs h S (.graph ρ q vals outs σ)) ∧
    (q = d → ∀ ρ, AgreeIn h P ρ ρ' → Ends h S P len ρ vals outs)
  | .node ρ' n ins outs =>
    (h.live n = true → n ≠ X → n ≠ G → n ≠ P → ∀ ρ, AgreeAt h G P d w n ρ ρ' → Runs h S (.node ρ n ins outs)) ∧
    (n = G → ∀ ρ, AgreeAt h G P d w n ρ ρ' → ∀ fin, (∀ ρ₂, AgreeIn h P ρ ρ₂ → Ends h S P len ρ₂ outs fin) →
      Runs h S (.node ρ n ins fin)) ∧
    (n = d → ∀ ρ, AgreeIn h P ρ ρ' → Ends h S P len ρ ins outs)
  | .loop ρ' n ins outs =>
    h.live n = true → n ≠ X → n ≠ P → ∀ ρ, AgreeAt h G P d w n ρ ρ' → Runs h S (.loop ρ n ins outs)
  | .blocks ρ' b ins outs =>
    h.live b = true → b ≠ X → b ≠ P →
    (h.hier.parent b ≠ some G → ∀ ρ, AgreeAt h G P d w b ρ ρ' → Runs h S (.blocks ρ b ins outs)) ∧
    (h.hier.parent b = some G → ∀ ρ, AgreeAt h G P d w b ρ ρ' → ∀ fin,
      (∀ ρ₂, AgreeIn h P ρ ρ₂ → Ends h S P len ρ₂ outs fin) → Runs h S (.blocks ρ b ins fin))

namespace MovesLast

variable {p G E X P i o d w : Nat} {more inner : List Nat} {sig : Types.Signature} {ins row other : List Types.Ty}
  (z : MovesLast C h g p G E X P i o d w more inner sig ins row other)
include z

theorem p_io : ∃ i' o', HasIO h p i' o' := by
  have hcon := z.valid.contains G p z.at'.parent
  rw [z.at'.op] at hcon
  have hc := z.valid.children p z.live_p
  unfold ChildrenOk at hc
  have key : ∀ {a b : List Types.Ty}, (∃ inp out rest, h.children p = inp :: out :: rest ∧
      h.ops inp = .input a ∧ h.ops out = .output b ∧ ∀ c ∈ rest, ¬ IsIO (h.ops c)) → ∃ i' o', HasIO h p i' o' := by
    rintro a b ⟨inp, out, rest, h1, _⟩
    exact ⟨inp, out, rest, h1⟩
  cases hop : h.ops p with
  | funcDefn a b => rw [hop] at hc; exact key hc
  | dfg a => rw [hop] at hc; exact key hc
  | case a => rw [hop] at hc; exact key hc
  | tailLoop a b c => rw [hop] at hc; exact key hc
  | dataflowBlock a b c => rw [hop] at hc; exact key hc
  | _ => rw [hop] at hcon; simp [MayContain, body] at hcon

theorem io_p {i' o' : Nat} (hio : HasIO g p i' o') : HasIO h p i' o' := by
  obtain ⟨a, b, r, hr⟩ := z.p_io
  obtain ⟨r', hio⟩ := hio
  rw [z.kids_p, hr] at hio
  simp only [List.cons_append, List.cons.injEq] at hio
  obtain ⟨rfl, rfl, _⟩ := hio
  exact ⟨r, hr⟩

theorem EX : E ≠ X := by
  rintro rfl; exact (List.nodup_cons.1 z.at'.nodup).1 (by simp)

/-- What the new graph gets comes from `G`. -/
theorem to_d {l : Link} (hl : l ∈ g.links) (hd : l.dst = d) : ∃ r, l = ⟨G, r, d, r⟩ := by
  rcases z.mem_links.1 hl with ⟨k, hk, k1, rfl⟩ | ⟨r, _, rfl⟩ | ⟨r, _, rfl⟩
  · rw [(moved_eq k).2.2.1] at hd
    rcases redirect_dst (o := o) (w := w) (len := row.length) k with ⟨e', e⟩ | ⟨_, _, e⟩ | ⟨_, j, _, e⟩
    · rw [e] at hd; exact absurd hd (z.ne_d (z.live_link hk).2)
    · rw [e] at hd; exact absurd hd.symm z.dw
    · rw [e] at hd; exact absurd hd (z.ne_d z.at'.live_o)
  · exact absurd hd (z.ne_d z.at'.live_o)
  · exact ⟨r, rfl⟩

theorem flow_down {l : Link} (hl : l ∈ g.links) (h1 : h.live l.src = true) {op : Ops.Op} (e : g.ops l.dst = op) (q1 : ∀ s, op ≠ .dfg s)
    (q2 : op ≠ g.ops w) (q3 : ∀ t, op ≠ .output t) : l ∈ h.links := by
  obtain ⟨k, k1, k2, k3, rfl⟩ := z.link_down hl (fun e' => q2 (by rw [← e, e']))
    (fun e' => q3 _ (by rw [← e, e', z.op_o])) (fun e' => q1 _ (by rw [← e, e', z.op_d]))
  by_cases hG : k.src = G
  · obtain ⟨f1, f2, f3, f4⟩ := passOn_eq (G := G) (d := d) k
    rw [f4, if_pos hG] at h1
    exact absurd rfl (z.ne_d h1)
  · rw [z.pass_id hG]; exact k1

theorem down_run (hd : ¬ IsDefn h d) (hw : ¬ IsDefn h w) {t : Task W} (hr : Runs g S t) : Joins h S G X P d w row.length t := by
  induction hr with
  | @graph ρ' σ' q i' o' vals res ins' outs h1 h2 h3 h4 h5 h6 h7 h8 h9 h10 ih =>
    have hql : g.live q = true := by
      obtain ⟨rest, h1⟩ := h1
      by_contra hc
      have := (z.treeG.dead (by simpa using hc)).2
      change g.children q = [] at this
      rw [this] at h1; cases h1
    have hqw : q ≠ w := by
      rintro rfl
      obtain ⟨rest, h1⟩ := h1
      rw [z.kids_w] at h1; cases h1
    refine ⟨fun hG hP hqd ρ hρ => ?_, ?_⟩
    · obtain ⟨hql, hqX⟩ : h.live q = true ∧ q ≠ X := by
        rcases z.live_cases hql with h | h | h
        · exact h
        · first | exact absurd h hqw | exact absurd h hqd
        · first | exact absurd h hqw | exact absurd h hqd
      have kept := fun n hn => z.kept (n := n) hG hP hn
      have loc : ∀ {n}, n ∈ h.children q → (Above h.hier.parent n P ↔ Above h.hier.parent q P) := fun hn =>
        z.child_loc hG (z.child_up hn)
      by_cases hp : q = p
      · subst hp
        have h1' := z.io_p h1
        have hmem := Extra.hasIO_mem h1'
        obtain ⟨g1, g2, g3⟩ := z.G_inner h1'
        have hqP : ¬ Above h.hier.parent q P := z.not_P
        have hkids := z.kids_p
        have hin : ∀ {n}, Inner h q i' o' n → Inner g q i' o' n := fun h =>
          ⟨by rw [hkids, List.mem_append]; exact .inl h.1, h.2⟩
        have hGin : Inner h q i' o' G := ⟨g1, g2, g3⟩
        have hdin : Inner g q i' o' d := ⟨by rw [hkids]; simp, fun e => z.ne_d (kept _ hmem.1).1 e.symm, fun e => z.ne_d (kept _ hmem.2).1 e.symm⟩
        have dG : d ≠ G := Ne.symm (z.ne_d z.at'.liveG)
        have hmid : ins' d = outs G := by
          have hr := h6 d hdin
          have hl1 := hr.1
          rw [z.numIns_d] at hl1
          have hl2 := h8 G (hin hGin)
          rw [z.op_G, numOuts_cfg] at hl2
          simp only at hl2
          refine List.ext_getElem? fun k => ?_
          by_cases hk : k < ins.length
          · have hk1 : (ins' d)[k]? = some (ins' d)[k] := List.getElem?_eq_getElem (by omega)
            obtain ⟨l, l1, l2, l3, l4⟩ := hr.2 k _ hk1
            obtain ⟨r, rfl⟩ := z.to_d l1 l2
            simp only at l3 l4
            subst l3
            rw [h7 G (hin hGin)] at l4
            rw [hk1]; exact l4.symm
          · rw [List.getElem?_eq_none (by omega), List.getElem?_eq_none (by omega)]
        let σ : Wires W := fun n => if n = G then σ' d else if n ∈ h.children q then σ' n else ρ n
        have sG : σ G = σ' d := by simp only [σ, if_pos]
        have sk : ∀ n, n ∈ h.children q → n ≠ G → σ n = σ' n := fun n hn h1 => by simp only [σ, if_neg h1, if_pos hn]
        have so : ∀ n, n ∉ h.children q → σ n = ρ n := fun n hn => by
          simp only [σ, if_neg (fun e : n = G => hn (e ▸ g1)), if_neg hn]
        have hσ : AgreeAt h G P d w q σ σ' := by
          refine ⟨fun hc => absurd hc hqP, fun _ => ⟨fun x x1 x2 x3 => ?_, sG.symm⟩⟩
          by_cases hx : x ∈ h.children q
          · exact (sk x hx x1).symm
          · rw [so x hx, h2 x (by rw [hkids, List.mem_append, List.mem_singleton]; push Not; exact ⟨hx, x2⟩)]
            exact (hρ.2 hqP).1 x x1 x2 x3
        refine ⟨σ, hσ, .graph (ins := ins') (outs := fun n => if n = G then outs d else outs n) h1' ?_ ?_ ?_ ?_ ?_ ?_ ?_ ?_ ?_⟩
        · exact so
        · rw [sk i' hmem.1 (Ne.symm g2)]; exact h3
        · obtain ⟨k1, k2, k3, _⟩ := kept i' hmem.1
          rw [← z.numOuts_eq k1 k2 (Ne.symm g2) k3]; exact h4
        · rw [sk o' hmem.2 (Ne.symm g3)]; exact h5
        · intro n hn
          obtain ⟨k1, k2, k3, k4, _⟩ := kept n hn.1
          exact z.ready_down k1 k2 k4 k3 (hσ.congr (loc hn.1)) (h6 n (hin hn))
        · intro n hn
          by_cases e : n = G
          · simp only [if_pos e]; rw [e, sG]; exact h7 d hdin
          · simp only [if_neg e]; rw [sk n hn.1 e]; exact h7 n (hin hn)
        · intro n hn
          by_cases e : n = G
          · simp only [if_pos e]; rw [h8 d hdin, e]; unfold numOuts; rw [z.out_d]
          · simp only [if_neg e]
            obtain ⟨k1, k2, k3, _⟩ := kept n hn.1
            rw [← z.numOuts_eq k1 k2 e k3]; exact h8 n (hin hn)
        · intro n hn
          obtain ⟨k1, k2, k3, _⟩ := kept n hn.1
          by_cases e : n = G
          · simp only [if_pos e]
            refine (ih n (hin hn)).2.1 e σ (hσ.congr (loc hn.1)) _ fun ρ₂ h₂ => ?_
            have := (ih d hdin).2.2 rfl ρ₂ fun x x1 x2 => by
              have xl := z.in_live x1 x2
              rw [h₂ x x1 x2]
              exact (hσ.2 hqP).1 x (z.in_ne x1 x2).1 (z.ne_d xl) (z.ne_w xl)
            rw [hmid, ← e] at this
            exact this
          · simp only [if_neg e]
            exact (ih n (hin hn)).1 k1 k2 e k3 σ (hσ.congr (loc hn.1))
        · obtain ⟨k1, k2, k3, k4, _⟩ := kept o' hmem.2
          exact z.ready_down k1 k2 k4 k3 (hσ.congr (loc hmem.2)) h10
      · have hkids := z.kids hql hqX hG hP hp
        have h1' : HasIO h q i' o' := by unfold HasIO; rw [← hkids]; exact h1
        have hmem := Extra.hasIO_mem h1'
        have hGk : G ∉ h.children q := fun hc => (kept _ hc).2.2.2.2 hp rfl
        have hdk : d ∉ h.children q := fun hc => z.ne_d (kept _ hc).1 rfl
        rw [hkids] at h2
        let σ : Wires W := fun n => if n ∈ h.children q then σ' n else ρ n
        have sk : ∀ n, n ∈ h.children q → σ n = σ' n := fun n hn => by simp only [σ, if_pos hn]
        have so : ∀ n, n ∉ h.children q → σ n = ρ n := fun n hn => by simp only [σ, if_neg hn]
        have hσ : AgreeAt h G P d w q σ σ' := by
          refine ⟨fun hin x x1 x2 => ?_, fun hout => ⟨fun x x1 x2 x3 => ?_, ?_⟩⟩
          · by_cases hx : x ∈ h.children q
            · exact (sk x hx).symm
            · rw [so x hx, h2 x hx]; exact hρ.1 hin x x1 x2
          · by_cases hx : x ∈ h.children q
            · exact (sk x hx).symm
            · rw [so x hx, h2 x hx]; exact (hρ.2 hout).1 x x1 x2 x3
          · rw [so G hGk, h2 d hdk]; exact (hρ.2 hout).2
        have hin : ∀ {n}, Inner h q i' o' n → Inner g q i' o' n := fun h => ⟨by rw [hkids]; exact h.1, h.2⟩
        refine ⟨σ, hσ, .graph (ins := ins') (outs := outs) h1' so ?_ ?_ ?_ ?_ ?_ ?_ ?_ ?_⟩
        · rw [sk i' hmem.1]; exact h3
        · obtain ⟨k1, k2, k3, _, k5⟩ := kept i' hmem.1
          rw [← z.numOuts_eq k1 k2 (k5 hp) k3]; exact h4
        · rw [sk o' hmem.2]; exact h5
        · intro n hn
          obtain ⟨k1, k2, k3, k4, _⟩ := kept n hn.1
          exact z.ready_down k1 k2 k4 k3 (hσ.congr (loc hn.1)) (h6 n (hin hn))
        · intro n hn
          rw [sk n hn.1]; exact h7 n (hin hn)
        · intro n hn
          obtain ⟨k1, k2, k3, _, k5⟩ := kept n hn.1
          rw [← z.numOuts_eq k1 k2 (k5 hp) k3]; exact h8 n (hin hn)
        · intro n hn
          obtain ⟨k1, k2, k3, _, k5⟩ := kept n hn.1
          exact (ih n (hin hn)).1 k1 k2 (k5 hp) k3 σ (hσ.congr (loc hn.1))
        · obtain ⟨k1, k2, k3, k4, _⟩ := kept o' hmem.2
          exact z.ready_down k1 k2 k4 k3 (hσ.congr (loc hmem.2)) h10
    · rintro rfl ρ hρ
      obtain ⟨rest, hio⟩ := h1
      rw [z.kids_d] at hio
      cases hio
      have hwi : Inner g q i o w := z.inner_iff.2 (.inr rfl)
      obtain ⟨hi, hlen⟩ := z.unpack_runs (h9 w hwi)
      have hrw := h6 w hwi
      rw [hi] at hrw
      have hσw' := h7 w hwi
      generalize outs w = elems at hi hlen hrw hσw'
      have hmem : i ∈ h.children P ∧ o ∈ h.children P := by rw [z.at'.inside]; simp
      have how : o ≠ w := z.ne_w z.at'.live_o
      have hres : res.length = row.length + other.length := by rw [h10.1, z.numIns_o]
      let σ : Wires W := fun n => if n ∈ h.children P then σ' n else ρ n
      have sk : ∀ n, n ∈ h.children P → σ n = σ' n := fun n hn => by simp only [σ, if_pos hn]
      have so : ∀ n, n ∉ h.children P → σ n = ρ n := fun n hn => by simp only [σ, if_neg hn]
      have hσ : AgreeIn h P σ σ' := by
        intro x x1 x2
        by_cases hx : x ∈ h.children P
        · exact (sk x hx).symm
        · rw [so x hx, h2 x (by rw [z.mem_d]; push Not; exact ⟨hx, z.ne_w (z.in_live x1 x2)⟩)]
          exact hρ x x1 x2
      have inn : ∀ {n}, n ∈ h.children P → Above h.hier.parent n P := fun hn => .of_parent (z.child_up hn)
      have back : ∀ {m}, m ∈ h.links → m.dst = o → m.dstPort < other.length + 1 →
          (passOn G q (redirect o w row.length m)).src = m.src ∧ σ' m.src = σ m.src := by
        intro m m1 m2 m3
        obtain ⟨s1, s2⟩ := z.from_in m1 (by rw [m2]; exact inn hmem.2) (by rw [m2]; exact z.oP)
          (by rw [m2, z.at'.opO, IsBody.numIns_output]; simpa using m3)
        obtain ⟨f1, f2, f3, f4⟩ := moved_eq (G := G) (d := q) (o := o) (w := w) (len := row.length) m
        rw [if_neg (z.in_ne s1 s2).1] at f2
        exact ⟨f2, hσ _ s1 s2⟩
      have hk1 : ∀ k v, k < row.length → res[k]? = some v → elems[k]? = some v := by
        intro k v hk hv
        obtain ⟨l, l1, l2, l3, l4⟩ := h10.2 k v hv
        rcases z.mem_links.1 l1 with ⟨m, hm, m1, rfl⟩ | ⟨r, _, rfl⟩ | ⟨r, _, rfl⟩
        · rw [(moved_eq m).2.2.1] at l2
          rw [(moved_eq m).2.2.2] at l3
          rcases redirect_dst (o := o) (w := w) (len := row.length) m with ⟨e', e⟩ | ⟨e', e0, e⟩ | ⟨e', j, ej, e⟩
          · rw [e] at l2; exact absurd l2 e'
          · rw [e] at l2; exact absurd l2.symm how
          · rw [e] at l3; simp only at l3; omega
        · simp only at l3 l4
          subst l3
          rw [hσw'] at l4; exact l4
        · exact absurd l2.symm (z.ne_d z.at'.live_o)
      have htake : res.take row.length = elems := by
        refine List.ext_getElem? fun k => ?_
        by_cases hk : k < row.length
        · rw [List.getElem?_take_of_lt hk, List.getElem?_eq_getElem (show k < res.length by omega)]
          exact (hk1 k _ hk (List.getElem?_eq_getElem (show k < res.length by omega))).symm
        · rw [List.getElem?_eq_none (by simp; omega), List.getElem?_eq_none (by omega)]
      refine ⟨elems, res.drop row.length, σ, by rw [← htake, List.take_append_drop], hlen,
        .graph (ins := ins') (outs := outs) ⟨_, z.at'.inside⟩ so ?_ ?_ ?_ ?_ ?_ ?_ ?_ ?_⟩
      · rw [sk i hmem.1]; exact h3
      · obtain ⟨k1, k2, k3, k4⟩ := z.kept_P hmem.1
        rw [← z.numOuts_eq k1 k2 k4 k3]; exact h4
      · rw [sk o hmem.2]; exact h5
      · intro n hn
        obtain ⟨k1, k2, k3, k4⟩ := z.kept_P hn.1
        exact z.ready_down k1 k2 hn.2.2 k3 (z.agree_in hσ (inn hn.1)) (h6 n (z.inner_iff.2 (.inl hn)))
      · intro n hn
        rw [sk n hn.1]; exact h7 n (z.inner_iff.2 (.inl hn))
      · intro n hn
        obtain ⟨k1, k2, k3, k4⟩ := z.kept_P hn.1
        rw [← z.numOuts_eq k1 k2 k4 k3]; exact h8 n (z.inner_iff.2 (.inl hn))
      · intro n hn
        obtain ⟨k1, k2, k3, k4⟩ := z.kept_P hn.1
        exact (ih n (z.inner_iff.2 (.inl hn))).1 k1 k2 k4 k3 σ (z.agree_in hσ (inn hn.1))
      · refine ⟨by rw [z.at'.opO, IsBody.numIns_output]; simp [hres], fun k v hk => ?_⟩
        rcases k with _ | j
        · cases hk
          obtain ⟨l, l1, l2, l3, l4⟩ := hrw.2 0 _ rfl
          rcases z.mem_links.1 l1 with ⟨m, hm, m1, rfl⟩ | ⟨r, _, rfl⟩ | ⟨r, _, rfl⟩
          · rw [(moved_eq m).2.2.1] at l2
            rcases redirect_dst (o := o) (w := w) (len := row.length) m with ⟨e', e⟩ | ⟨e', e0, e⟩ | ⟨e', j, ej, e⟩
            · rw [e] at l2; exact absurd l2 (z.ne_w (z.live_link hm).2)
            · obtain ⟨b1, b2⟩ := back hm e' (by omega)
              rw [b1, (moved_eq m).1, b2] at l4
              exact ⟨m, hm, e', e0, l4⟩
            · rw [e] at l2; exact absurd l2 how
          · exact absurd l2 how
          · exact absurd l2 z.dw
        · rw [List.getElem?_cons_succ, List.getElem?_drop] at hk
          have hj := (List.getElem?_eq_some_iff.1 hk).1
          obtain ⟨l, l1, l2, l3, l4⟩ := h10.2 _ v hk
          rcases z.mem_links.1 l1 with ⟨m, hm, m1, rfl⟩ | ⟨r, hr, rfl⟩ | ⟨r, _, rfl⟩
          · rw [(moved_eq m).2.2.1] at l2
            rw [(moved_eq m).2.2.2] at l3
            rcases redirect_dst (o := o) (w := w) (len := row.length) m with ⟨e', e⟩ | ⟨e', e0, e⟩ | ⟨e', j', ej, e⟩
            · rw [e] at l2; exact absurd l2 e'
            · rw [e] at l2; exact absurd l2.symm how
            · rw [e] at l3
              simp only at l3
              obtain ⟨b1, b2⟩ := back hm e' (by omega)
              rw [b1, (moved_eq m).1, b2] at l4
              exact ⟨m, hm, e', by omega, l4⟩
          · simp only at l3; omega
          · exact absurd l2.symm (z.ne_d z.at'.live_o)
  | leaf h1 =>
    refine ⟨fun k1 k2 k3 k4 ρ _ => .leaf (z.leaf_down hd hw k1 k2 k4 h1), ?_, ?_⟩
    · rintro rfl
      exact absurd h1 (leaf_not (.inl ⟨_, z.op_G⟩))
    · rintro rfl
      exact absurd h1 (leaf_not (.inr ⟨_, z.op_d⟩))
  | const h1 =>
    refine ⟨fun k1 k2 k3 k4 ρ _ => .const (z.ops_down k1 k2 k4 h1 (by simp) (by simp)).1, ?_, ?_⟩
    · rintro rfl; rw [z.op_G] at h1; cases h1
    · rintro rfl; rw [z.op_d] at h1; cases h1
  | dfg h1 _ ih =>
    refine ⟨fun k1 k2 k3 k4 ρ hρ => ?_, ?_, fun k => ih.2 k⟩
    · obtain ⟨σ, _, hr⟩ := ih.1 k3 k4 (z.ne_d k1) ρ hρ
      exact .dfg (z.ops_down k1 k2 k4 h1 (by simp) (by simp)).1 hr
    · rintro rfl; rw [z.op_G] at h1; cases h1
  | @cond _ _ n c _ _ _ _ _ _ _ _ h1 h2 h3 h4 _ ih =>
    refine ⟨fun k1 k2 k3 k4 ρ hρ => ?_, ?_, ?_⟩
    · obtain ⟨e, _⟩ := z.ops_down k1 k2 k4 h1 (by simp) (by simp)
      have hp : n ≠ p := by rintro rfl; exact (z.p_not e).2 _ _ _ rfl
      rw [z.kids k1 k2 k3 k4 hp] at h2
      have hc := List.mem_of_getElem? h2
      obtain ⟨c1, _, c3, _, c5⟩ := z.kept k3 k4 hc
      obtain ⟨σ, _, hr⟩ := ih.1 (c5 hp) c3 (z.ne_d c1) ρ (hρ.congr (z.child_loc k3 (z.child_up hc)))
      exact .cond e h2 h3 h4 hr
    · rintro rfl; rw [z.op_G] at h1; cases h1
    · rintro rfl; rw [z.op_d] at h1; cases h1
  | tailLoop h1 _ ih =>
    refine ⟨fun k1 k2 k3 k4 ρ hρ => .tailLoop (z.ops_down k1 k2 k4 h1 (by simp) (by simp)).1 (ih k1 k2 k4 ρ hρ), ?_, ?_⟩
    · rintro rfl; rw [z.op_G] at h1; cases h1
    · rintro rfl; rw [z.op_d] at h1; cases h1
  | again h1 h2 _ _ ih1 ih2 =>
    intro k1 k2 k4 ρ hρ
    obtain ⟨e, hG, _⟩ := z.ops_down k1 k2 k4 h1 (by simp) (by simp)
    obtain ⟨σ, _, hr⟩ := ih1.1 hG k4 (z.ne_d k1) ρ hρ
    exact .again e h2 hr (ih2 k1 k2 k4 ρ hρ)
  | done h1 h2 _ ih =>
    intro k1 k2 k4 ρ hρ
    obtain ⟨e, hG, _⟩ := z.ops_down k1 k2 k4 h1 (by simp) (by simp)
    obtain ⟨σ, _, hr⟩ := ih.1 hG k4 (z.ne_d k1) ρ hρ
    exact .done e h2 hr
  | @cfg ρ' n entry _ sg _ _ h1 h2 _ ih =>
    refine ⟨fun k1 k2 k3 k4 ρ hρ => ?_, ?_, ?_⟩
    · have ho : n ≠ o := by rintro rfl; rw [z.op_o] at h1; cases h1
      have e : h.ops n = .cfg sg := by rw [← z.ops k1 k2 k3 k4 ho]; exact h1
      have hp : n ≠ p := by rintro rfl; exact (z.p_not e).1 _ rfl
      rw [z.kids k1 k2 k3 k4 hp] at h2
      have hc : entry ∈ h.children n := by rw [h2]; simp
      obtain ⟨c1, c2, c3, _⟩ := z.kept k3 k4 hc
      have hu := z.child_up hc
      exact .cfg e h2 ((ih c1 c2 c3).1 (by rw [hu]; exact fun e => k3 (Option.some.inj e)) ρ (hρ.congr (z.child_loc k3 hu)))
    · rintro rfl ρ hρ fin hfin
      rw [z.kids_G] at h2; cases h2
      have hE := z.block_out z.at'.upE z.at'.EP
      exact .cfg z.at'.op z.at'.children ((ih (z.tree.parent_live _ _ z.at'.upE).1 z.EX z.at'.EP).2 z.at'.upE ρ
        (hρ.congr ⟨fun h => absurd h hE, fun h => absurd h z.G_out⟩) fin hfin)
    · rintro rfl; rw [z.op_d] at h1; cases h1
  | @jump ρ' σ' b _ _ _ _ _ _ _ _ _ _ _ _ l h1 h2 h3 h4 h5 h6 h7 hr1 _ ih1 ih2 =>
    subst h5
    intro k1 k2 k3
    obtain ⟨e, hG, _⟩ := z.ops_down k1 k2 k3 h1 (by simp) (by simp)
    have hm := z.flow_down h4 k1 h7 (by simp) (by rw [z.op_w, unpackOp]; simp) (by simp)
    have hl := (z.live_link hm).2
    have hdP : l.dst ≠ P := by intro e'; rw [e', z.op_P] at h7; cases h7
    have hdX : l.dst ≠ X := by intro e'; rw [z.at'.pred l hm e'] at k3; exact k3 rfl
    have e' := (z.ops_down hl hdX hdP h7 (by simp) (by simp)).1
    refine ⟨fun k4 ρ hρ => ?_, fun k4 ρ hρ fin hfin => ?_⟩
    · obtain ⟨σ, hσ, hr⟩ := ih1.1 hG k3 (z.ne_d k1) ρ hρ
      obtain ⟨d1, d2, d4, d3⟩ := z.same_level hm e k4
      exact .jump e h2 h3 hm rfl h6 e' hr ((ih2 hl d4 d2).1 d1 σ (hσ.congr d3))
    · obtain ⟨σ, hσ, hr⟩ := ih1.1 hG k3 (z.ne_d k1) ρ hρ
      have hud : h.hier.parent l.dst = some G := by
        obtain ⟨q, q1, q2⟩ := z.flow_parent hm e
        rw [q2, ← q1]; exact k4
      have hbo := z.block_out k4 k3
      have hdo := z.block_out hud hdP
      have hsame := z.in_same k4 k3 hr
      exact .jump e h2 h3 hm rfl h6 e' hr ((ih2 hl hdX hdP).2 hud σ
        (hσ.congr ⟨fun h => absurd h hdo, fun h => absurd h hbo⟩) fin
        fun ρ₂ h₂ => hfin ρ₂ fun x x1 x2 => by rw [h₂ x x1 x2, hsame x x1 x2])
  | @exit _ _ b tag _ _ _ _ _ _ _ _ l h1 h2 h3 h4 h5 h6 h7 _ ih =>
    subst h5
    intro k1 k2 k3
    obtain ⟨e, hG, _⟩ := z.ops_down k1 k2 k3 h1 (by simp) (by simp)
    have hm := z.flow_down h4 k1 h7 (by simp) (by rw [z.op_w, unpackOp]; simp) (by simp)
    have hl := (z.live_link hm).2
    have hdX : l.dst ≠ X := by intro e'; rw [z.at'.pred l hm e'] at k3; exact k3 rfl
    have hdo : l.dst ≠ o := by intro e'; rw [e', z.op_o] at h7; cases h7
    have hdG : l.dst ≠ G := by intro e'; rw [e', z.op_G] at h7; cases h7
    refine ⟨fun k4 ρ hρ => ?_, fun k4 ρ hρ fin hfin => ?_⟩
    · obtain ⟨σ, hσ, hr⟩ := ih.1 hG k3 (z.ne_d k1) ρ hρ
      obtain ⟨d1, d2, d4, d3⟩ := z.same_level hm e k4
      exact .exit e h2 h3 hm rfl h6 (by rw [← z.ops hl hdX hdG d2 hdo]; exact h7) hr
    · obtain ⟨σ, hσ, hr⟩ := ih.1 hG k3 (z.ne_d k1) ρ hρ
      have hdP : l.dst = P := by
        by_contra hdP
        obtain ⟨q, q1, q2⟩ := z.flow_parent hm e
        rw [← q1, k4] at q2
        exact hdX (z.exit_is q2 (by rw [← z.ops hl hdX hdG hdP hdo]; exact h7))
      obtain ⟨elems, others, τ, rfl, hlen, hr2⟩ := hfin σ (z.in_same k4 k3 hr)
      refine .jump e h2 h3 hm rfl h6 (by rw [hdP]; exact z.at'.opP) hr ?_
      rw [hdP]
      exact .exit z.at'.opP (tag := 0) rfl hlen z.at'.link rfl rfl z.at'.opX hr2
  | @call _ _ n f _ _ _ h1 h2 h3 _ ih =>
    refine ⟨fun k1 k2 k3 k4 ρ _ => ?_, ?_, ?_⟩
    · have hf := (z.same_defn hd hw f).2 h2
      obtain ⟨_, _, e⟩ := id hf
      have hfG : f ≠ G := by rintro rfl; rw [z.at'.op] at e; cases e
      have hfP : f ≠ P := by rintro rfl; rw [z.at'.opP] at e; cases e
      obtain ⟨σ, _, hr⟩ := ih.1 hfG hfP (by rintro rfl; exact hd hf) noWires .none
      exact .call (z.calls_down k1 k2 k4 h1) hf (by rw [← z.numOuts_eq k1 k2 k3 k4]; exact h3) hr
    · rintro rfl
      rcases calls_op h1 with ⟨_, _, _, e⟩ | ⟨_, e⟩ <;> (rw [z.op_G] at e; cases e)
    · rintro rfl
      rcases calls_op h1 with ⟨_, _, _, e⟩ | ⟨_, e⟩ <;> (rw [z.op_d] at e; cases e)

theorem returns (hd : ¬ IsDefn h d) (hw : ¬ IsDefn h w) {f : Nat} {args outs : List (Val W)} :
    Returns h S f args outs ↔ Returns g S f args outs := by
  constructor
  · rintro ⟨h1, σ, hr⟩
    obtain ⟨_, _, e⟩ := id h1
    have hfG : f ≠ G := by rintro rfl; rw [z.at'.op] at e; cases e
    have hfP : f ≠ P := by rintro rfl; rw [z.at'.opP] at e; cases e
    obtain ⟨σ', _, hr'⟩ := (z.up_run hd hw hr).1 hfG hfP noWires .none
    exact ⟨(z.same_defn hd hw f).1 h1, σ', hr'⟩
  · rintro ⟨h1, σ, hr⟩
    have h1' := (z.same_defn hd hw f).2 h1
    obtain ⟨_, _, e⟩ := id h1'
    have hfG : f ≠ G := by rintro rfl; rw [z.at'.op] at e; cases e
    have hfP : f ≠ P := by rintro rfl; rw [z.at'.opP] at e; cases e
    obtain ⟨σ', _, hr'⟩ := (z.down_run hd hw hr).1 hfG hfP (by rintro rfl; exact hd h1') noWires .none
    exact ⟨h1', σ', hr'⟩

end MovesLast

end Verif.Patch
