import Verif.Patch.MoveOutLemmas
import Verif.Patch.CfgToDfgValid
import Verif.Patch.OutlineValid

/-!
# Moving the last block out of a control-flow graph: the result is valid
-/
namespace Verif.Patch

open Verif.Graph Verif.Ops Verif.Passes Verif.Validate Verif.Dataflow

variable {Meta : Type} {C : Validate.Context} {h g : Hugr Ops.Op Meta}

/-- When `u → v` is the only new edge between what `φ` puts together, there are no new cycles. -/
theorem contract {r s : Nat → Nat → Prop} {φ : Nat → Nat} {u v : Nat} (huv : u ≠ v) (hφ : φ u = φ v)
    (hr : ∀ a b, r a b → s (φ a) (φ b) ∨ (a = u ∧ b = v)) {x y : Nat} (hxy : Relation.TransGen r x y) :
    Relation.TransGen s (φ x) (φ y) ∨ (x = u ∧ y = v) := by
  induction hxy with
  | single he =>
    rcases hr _ _ he with h1 | h1
    · exact .inl (.single h1)
    · exact .inr h1
  | @tail y w _ he ih =>
    rcases hr _ _ he with h1 | ⟨rfl, rfl⟩
    · rcases ih with ih | ⟨rfl, rfl⟩
      · exact .inl (ih.tail h1)
      · exact .inl (.single (by rw [hφ]; exact h1))
    · rcases ih with ih | ⟨_, e⟩
      · exact .inl (by rw [← hφ]; exact ih)
      · exact absurd e huv

theorem above_order {par : Nat → Option Nat} {x a b : Nat} (ha : Above par x a) (hb : Above par x b) :
    Above par a b ∨ Above par b a := by
  induction ha with
  | refl => exact .inl hb
  | @step x q a hq ha ih =>
    rcases above_cases hb with rfl | ⟨q', hq', hb'⟩
    · exact .inr (.step hq ha)
    · rw [hq] at hq'; cases hq'
      exact ih hb'

/-- The last block is moved. -/
structure MovesLast (C : Validate.Context) (h g : Hugr Ops.Op Meta) (p G E X P i o d w : Nat) (more inner : List Nat)
    (sig : Types.Signature) (ins row other : List Types.Ty) : Prop where
  at' : LastAt C h p G E X P i o more inner sig ins row other
  put : ExitMoved h p G E X P o d w more sig ins row g
  treeG : IsTree g
  freshd : h.live d = false
  freshw : h.live w = false
  dw : d ≠ w
  known : C.defs "prelude" "UnpackTuple" = .poly [.listType (.runtimeType .linear)]

namespace MovesLast

variable {p G E X P i o d w : Nat} {more inner : List Nat} {sig : Types.Signature} {ins row other : List Types.Ty}
  (z : MovesLast C h g p G E X P i o d w more inner sig ins row other)
include z

theorem tree : IsTree h := z.at'.tree
theorem valid : Valid C h := z.at'.valid

theorem ne_w {x : Nat} (hx : h.live x = true) : x ≠ w := by
  rintro rfl; rw [z.freshw] at hx; cases hx
theorem ne_d {x : Nat} (hx : h.live x = true) : x ≠ d := by
  rintro rfl; rw [z.freshd] at hx; cases hx

theorem live_cases {x : Nat} (hx : g.live x = true) : (h.live x = true ∧ x ≠ X) ∨ x = d ∨ x = w := (z.put.live x).1 hx
theorem live_kept {x : Nat} (h1 : h.live x = true) (h2 : x ≠ X) : g.live x = true := (z.put.live x).2 (.inl ⟨h1, h2⟩)
theorem live_w : g.live w = true := (z.put.live w).2 (by simp)
theorem live_d : g.live d = true := (z.put.live d).2 (by simp)

theorem live_p : h.live p = true := (z.tree.parent_live _ _ z.at'.parent).2
theorem live_i : h.live i = true := (z.tree.parent_live _ _ z.at'.upI).1

theorem pG : p ≠ G := by rintro rfl; exact z.tree.acyclic _ _ z.at'.parent (.refl _)
theorem pP : p ≠ P := by rintro rfl; exact z.tree.acyclic _ _ z.at'.parent (.of_parent z.at'.upP)
theorem pX : p ≠ X := by rintro rfl; exact z.at'.X_leaf z.at'.parent
theorem oG : o ≠ G := (z.at'.not_in z.at'.upO (.refl _)).1
theorem oP : o ≠ P := (z.at'.not_in z.at'.upO (.refl _)).2.1
theorem oX : o ≠ X := (z.at'.not_in z.at'.upO (.refl _)).2.2.1

/-- Nothing is inside the output. -/
theorem o_leaf {x : Nat} : h.hier.parent x ≠ some o := by
  intro hp
  have hc := z.valid.children o z.at'.live_o
  unfold ChildrenOk at hc
  rw [z.at'.opO] at hc
  have hm : x ∈ h.children o := (z.tree.child_iff _ _).2 hp
  rw [show h.children o = [] from hc] at hm; cases hm

theorem po : p ≠ o := by rintro rfl; exact z.o_leaf z.at'.parent

theorem op_w : g.ops w = unpackOp row := by rw [z.put.ops w z.live_w, if_pos rfl]
theorem op_d : g.ops d = .dfg ⟨ins, sig.output⟩ := by rw [z.put.ops d z.live_d, if_neg z.dw, if_pos rfl]
theorem op_G : g.ops G = .cfg ⟨sig.input, ins⟩ := by
  rw [z.put.ops G (z.live_kept z.at'.liveG (Ne.symm z.at'.XG)), if_neg (z.ne_w z.at'.liveG), if_neg (z.ne_d z.at'.liveG), if_pos rfl]
theorem op_P : g.ops P = .exitBlock ins := by
  rw [z.put.ops P (z.live_kept z.at'.liveP (Ne.symm z.at'.XP)), if_neg (z.ne_w z.at'.liveP), if_neg (z.ne_d z.at'.liveP),
    if_neg z.at'.PG, if_pos rfl]
theorem op_o : g.ops o = .output sig.output := by
  rw [z.put.ops o (z.live_kept z.at'.live_o z.oX), if_neg (z.ne_w z.at'.live_o), if_neg (z.ne_d z.at'.live_o),
    if_neg z.oG, if_neg z.oP, if_pos rfl]
theorem ops {x : Nat} (h1 : h.live x = true) (h2 : x ≠ X) (hG : x ≠ G) (hP : x ≠ P) (ho : x ≠ o) : g.ops x = h.ops x := by
  rw [z.put.ops x (z.live_kept h1 h2), if_neg (z.ne_w h1), if_neg (z.ne_d h1), if_neg hG, if_neg hP, if_neg ho]

theorem out_ports {x : Nat} (h1 : h.live x = true) (h2 : x ≠ X) (hG : x ≠ G) (hP : x ≠ P) :
    (g.ops x).ports .outgoing = (h.ops x).ports .outgoing := by
  by_cases ho : x = o
  · subst ho; rw [z.op_o, z.at'.opO]; rfl
  · rw [z.ops h1 h2 hG hP ho]

theorem out_d : (g.ops d).ports .outgoing = (h.ops G).ports .outgoing := by
  rw [z.op_d, z.at'.op]; rfl

theorem in_ports {x : Nat} (h1 : h.live x = true) (h2 : x ≠ X) (ho : x ≠ o) :
    (g.ops x).ports .incoming = (h.ops x).ports .incoming := by
  by_cases hG : x = G
  · subst hG; rw [z.op_G, z.at'.op]; rfl
  · by_cases hP : x = P
    · subst hP; rw [z.op_P, z.at'.opP]; rfl
    · rw [z.ops h1 h2 hG hP ho]

theorem up {x : Nat} (h1 : h.live x = true) (h2 : x ≠ X) :
    g.hier.parent x = if h.hier.parent x = some P then some d else h.hier.parent x := by
  rw [z.put.parent x (z.live_kept h1 h2)]
  by_cases e : h.hier.parent x = some P
  · rw [if_pos (.inr e), if_pos e]
  · rw [if_neg (by rintro (e' | e'); exacts [z.ne_w h1 e', e e']), if_neg (z.ne_d h1), if_neg e]

theorem up_some {x r : Nat} (hr : h.hier.parent x = some r) (h2 : x ≠ X) :
    g.hier.parent x = some (if r = P then d else r) := by
  rw [z.up (z.tree.parent_live _ _ hr).1 h2, hr]
  by_cases e : r = P <;> simp [e]

theorem up_w : g.hier.parent w = some d := by rw [z.put.parent w z.live_w, if_pos (.inl rfl)]
theorem up_d : g.hier.parent d = some p := by
  rw [z.put.parent d z.live_d, if_neg, if_pos rfl]
  rintro (e | e)
  · exact z.dw e
  · have := (z.tree.parent_live _ _ e).1
    rw [z.freshd] at this; cases this
theorem gup_o : g.hier.parent o = some d := by rw [z.up_some z.at'.upO z.oX, if_pos rfl]
theorem gup_G : g.hier.parent G = some p := by rw [z.up_some z.at'.parent (Ne.symm z.at'.XG), if_neg z.pP]
theorem gup_P : g.hier.parent P = some G := by rw [z.up_some z.at'.upP (Ne.symm z.at'.XP), if_neg (Ne.symm z.at'.PG)]

theorem kids {x : Nat} (h1 : h.live x = true) (h2 : x ≠ X) (hG : x ≠ G) (hP : x ≠ P) (hp : x ≠ p) : g.children x = h.children x := by
  rw [z.put.children x (z.live_kept h1 h2), if_neg hG, if_neg hP, if_neg (z.ne_d h1), if_neg (z.ne_w h1), if_neg hp]
theorem kids_G : g.children G = E :: P :: more.filter (· ≠ P) := by
  rw [z.put.children G (z.live_kept z.at'.liveG (Ne.symm z.at'.XG)), if_pos rfl]
theorem kids_P : g.children P = [] := by
  rw [z.put.children P (z.live_kept z.at'.liveP (Ne.symm z.at'.XP)), if_neg z.at'.PG, if_pos rfl]
theorem kids_d : g.children d = i :: o :: (inner ++ [w]) := by
  rw [z.put.children d z.live_d, if_neg (Ne.symm (z.ne_d z.at'.liveG)), if_neg (Ne.symm (z.ne_d z.at'.liveP)), if_pos rfl, z.at'.inside]
  rfl
theorem kids_w : g.children w = [] := by
  rw [z.put.children w z.live_w, if_neg (Ne.symm (z.ne_w z.at'.liveG)), if_neg (Ne.symm (z.ne_w z.at'.liveP)),
    if_neg (Ne.symm z.dw), if_pos rfl]
theorem kids_p : g.children p = h.children p ++ [d] := by
  rw [z.put.children p (z.live_kept z.live_p z.pX), if_neg z.pG, if_neg z.pP, if_neg (z.ne_d z.live_p), if_neg (z.ne_w z.live_p),
    if_pos rfl]

theorem child_live {q c : Nat} (hc : c ∈ h.children q) : h.live c = true := (z.tree.parent_live _ _ ((z.tree.child_iff _ _).1 hc)).1
theorem child_up {q c : Nat} (hc : c ∈ h.children q) : h.hier.parent c = some q := (z.tree.child_iff _ _).1 hc

theorem live_link {l : Link} (hl : l ∈ h.links) : h.live l.src = true ∧ h.live l.dst = true :=
  Dataflow.link_live z.tree z.valid hl

theorem src_X {l : Link} (hl : l ∈ h.links) : l.src ≠ X := by
  intro e
  have := (linksOk_of z.tree z.valid l hl).2.1
  rw [e, z.at'.portsX.2] at this; omega

theorem dst_X {l : Link} (hl : l ∈ h.links) (hP : l.src ≠ P) : l.dst ≠ X := fun e => hP (by rw [z.at'.pred l hl e])

theorem mem_links {l : Link} : l ∈ g.links ↔
    (∃ k ∈ h.links, k.src ≠ P ∧ l = passOn G d (redirect o w row.length k)) ∨
    (∃ q, q < row.length ∧ l = ⟨w, q, o, q⟩) ∨ ∃ q, q < ins.length + 1 ∧ l = ⟨G, q, d, q⟩ := by
  rw [z.put.links.mem_iff, List.mem_append, List.mem_append, List.mem_map, List.mem_map, List.mem_map]
  constructor
  · rintro ((⟨k, hk, rfl⟩ | ⟨q, hq, rfl⟩) | ⟨q, hq, rfl⟩)
    · rw [List.mem_filter, decide_eq_true_eq] at hk
      exact .inl ⟨k, hk.1, hk.2, rfl⟩
    · exact .inr (.inl ⟨q, List.mem_range.1 hq, rfl⟩)
    · exact .inr (.inr ⟨q, List.mem_range.1 hq, rfl⟩)
  · rintro (⟨k, hk, h1, rfl⟩ | ⟨q, hq, rfl⟩ | ⟨q, hq, rfl⟩)
    · exact .inl (.inl ⟨k, by rw [List.mem_filter, decide_eq_true_eq]; exact ⟨hk, h1⟩, rfl⟩)
    · exact .inl (.inr ⟨q, List.mem_range.2 hq, rfl⟩)
    · exact .inr ⟨q, List.mem_range.2 hq, rfl⟩

end MovesLast

theorem passOn_eq {G d : Nat} (l : Link) : (passOn G d l).srcPort = l.srcPort ∧ (passOn G d l).dst = l.dst ∧
    (passOn G d l).dstPort = l.dstPort ∧ (passOn G d l).src = if l.src = G then d else l.src := by
  unfold passOn
  by_cases e : l.src = G
  · simp [e]
  · simp [e]

/-- Where the link goes now. -/
theorem moved_eq {G d o w len : Nat} (l : Link) : (passOn G d (redirect o w len l)).srcPort = l.srcPort ∧
    (passOn G d (redirect o w len l)).src = (if l.src = G then d else l.src) ∧
    (passOn G d (redirect o w len l)).dst = (redirect o w len l).dst ∧
    (passOn G d (redirect o w len l)).dstPort = (redirect o w len l).dstPort := by
  obtain ⟨a, b, c, e⟩ := passOn_eq (G := G) (d := d) (redirect o w len l)
  obtain ⟨r1, r2⟩ := redirect_src (o := o) (w := w) (len := len) l
  rw [r1] at e
  exact ⟨a.trans r2, e, b, c⟩

namespace MovesLast

variable {p G E X P i o d w : Nat} {more inner : List Nat} {sig : Types.Signature} {ins row other : List Types.Ty}
  (z : MovesLast C h g p G E X P i o d w more inner sig ins row other)
include z

theorem not_w {q : Nat} : w ∉ h.children q := fun hc => z.ne_w (z.child_live hc) rfl
theorem not_d {q : Nat} : d ∉ h.children q := fun hc => z.ne_d (z.child_live hc) rfl

/-- Edges in other regions. -/
theorem region {q x y : Nat} (h1 : h.live q = true) (h2 : q ≠ X) (hG : q ≠ G) (hP : q ≠ P) (hp : q ≠ p) :
    RegionEdge g q x y ↔ RegionEdge h q x y := by
  have ho : o ∉ h.children q := fun hc => by
    have := z.child_up hc
    rw [z.at'.upO] at this; cases this; exact hP rfl
  have hGc : G ∉ h.children q := fun hc => by
    have := z.child_up hc
    rw [z.at'.parent] at this; cases this; exact hp rfl
  have hPc : P ∉ h.children q := fun hc => by
    have := z.child_up hc
    rw [z.at'.upP] at this; cases this; exact hG rfl
  unfold RegionEdge
  rw [z.kids h1 h2 hG hP hp]
  constructor
  · rintro ⟨m1, m2, l, hl, rfl, rfl⟩
    rcases z.mem_links.1 hl with ⟨k, hk, k1, rfl⟩ | ⟨r, _, rfl⟩ | ⟨r, _, rfl⟩
    · obtain ⟨_, f2, f3, _⟩ := moved_eq (G := G) (d := d) (o := o) (w := w) (len := row.length) k
      rw [f2] at m1 ⊢
      rw [f3] at m2 ⊢
      by_cases e : k.src = G
      · rw [if_pos e] at m1; exact absurd m1 z.not_d
      · rw [if_neg e] at m1 ⊢
        rcases redirect_dst (o := o) (w := w) (len := row.length) k with ⟨_, e⟩ | ⟨_, _, e⟩ | ⟨_, j, _, e⟩
        · rw [e] at m2 ⊢; exact ⟨m1, m2, k, hk, rfl, rfl⟩
        · rw [e] at m2; exact absurd m2 z.not_w
        · rw [e] at m2; exact absurd m2 ho
    · exact absurd m2 ho
    · exact absurd m1 hGc
  · rintro ⟨m1, m2, l, hl, rfl, rfl⟩
    refine ⟨m1, m2, passOn G d (redirect o w row.length l), z.mem_links.2 (.inl ⟨l, hl, fun e => hPc (e ▸ m1), rfl⟩), ?_, ?_⟩
    · rw [(moved_eq l).2.1, if_neg (fun e : l.src = G => hGc (e ▸ m1))]
    · rw [(moved_eq l).2.2.1, redirect_ne (fun e : l.dst = o => ho (e ▸ m2))]

/-! ## What is inside the block -/

theorem in_ne {x : Nat} (ha : Above h.hier.parent x P) (hx : x ≠ P) : x ≠ G ∧ x ≠ X ∧ x ≠ p := by
  obtain ⟨c, c1, c2⟩ := ha.last hx
  obtain ⟨q1, q2, q3, _, q5⟩ := z.at'.not_in c2 c1
  exact ⟨q1, q3, q5⟩

theorem in_child {x q : Nat} (hq : h.hier.parent x = some q) (ha : Above h.hier.parent q P) : Above h.hier.parent x P ∧ x ≠ P :=
  ⟨.step hq ha, by rintro rfl; exact z.tree.acyclic _ _ hq ha⟩

theorem in_parent {x q : Nat} (ha : Above h.hier.parent x P) (hx : x ≠ P) (hq : h.hier.parent x = some q) : Above h.hier.parent q P := by
  rcases above_cases ha with e | ⟨q', hq', h1⟩
  · exact absurd e hx
  · rw [hq] at hq'; cases hq'; exact h1

theorem above_in {x a : Nat} (ha : Above h.hier.parent x a) (h1 : Above h.hier.parent a P) (h2 : a ≠ P) : Above g.hier.parent x a := by
  induction ha with
  | refl => exact .refl _
  | @step x q a hq ha ih =>
    have hq1 : Above h.hier.parent q P := ha.trans h1
    obtain ⟨x1, x2⟩ := z.in_child hq hq1
    have hqP : q ≠ P := by
      rintro rfl
      rcases above_cases ha with e | ⟨r, hr, h3⟩
      · exact h2 e.symm
      · exact z.tree.acyclic _ _ hr (h3.trans h1)
    refine .step ?_ (ih h1 h2)
    rw [z.up_some hq (z.in_ne x1 x2).2.1, if_neg hqP]

theorem above_d {x : Nat} (ha : Above h.hier.parent x P) : Above g.hier.parent (if x = P then d else x) d := by
  have key : ∀ {x y}, Above h.hier.parent x y → y = P → Above g.hier.parent (if x = P then d else x) d := by
    intro x y ha
    induction ha with
    | refl => rintro rfl; rw [if_pos rfl]; exact .refl _
    | @step x q a hq ha ih =>
      intro e
      have ha' : Above h.hier.parent q P := by rw [← e]; exact ha
      obtain ⟨x1, x2⟩ := z.in_child hq ha'
      rw [if_neg x2]
      exact .step (z.up_some hq (z.in_ne x1 x2).2.1) (ih e)
  exact key ha rfl

theorem above_out {x a : Nat} (ha : Above h.hier.parent x a) : (Above h.hier.parent x P → x = P) → x ≠ X → Above g.hier.parent x a := by
  induction ha with
  | refl => intro _ _; exact .refl _
  | @step x q a hq ha ih =>
    intro hx hX
    have hqP : ¬ Above h.hier.parent q P := fun h1 => by
      obtain ⟨x1, x2⟩ := z.in_child hq h1
      exact x2 (hx x1)
    refine .step ?_ (ih (fun h1 => absurd h1 hqP) ?_)
    · rw [z.up_some hq hX, if_neg (by rintro rfl; exact hqP (.refl _))]
    · rintro rfl; exact z.at'.X_leaf hq

/-! ## The rules -/

theorem op_child {q c : Nat} (hG : q ≠ G) (hP : q ≠ P) (hp : q ≠ p) (hc : c ∈ h.children q) : g.ops c = h.ops c := by
  have hu := z.child_up hc
  refine z.ops (z.child_live hc) ?_ ?_ ?_ ?_
  · rintro rfl; rw [z.at'.upX] at hu; cases hu; exact hG rfl
  · rintro rfl; rw [z.at'.parent] at hu; cases hu; exact hp rfl
  · rintro rfl; rw [z.at'.upP] at hu; cases hu; exact hG rfl
  · rintro rfl; rw [z.at'.upO] at hu; cases hu; exact hP rfl

theorem op_child_p {c : Nat} (hc : c ∈ h.children p) : g.ops c = h.ops c ∨ c = G := by
  by_cases e : c = G
  · exact .inr e
  have hu := z.child_up hc
  refine .inl (z.ops (z.child_live hc) ?_ e ?_ ?_)
  · rintro rfl; rw [z.at'.upX] at hu; exact z.pG (Option.some.inj hu).symm
  · rintro rfl; rw [z.at'.upP] at hu; exact z.pG (Option.some.inj hu).symm
  · rintro rfl; rw [z.at'.upO] at hu; exact z.pP (Option.some.inj hu).symm

theorem op_p : g.ops p = h.ops p := z.ops z.live_p z.pX z.pG z.pP z.po

theorem v_children {n : Nat} (hn : g.live n = true) : ChildrenOk g n := by
  have hndP : (i :: o :: inner).Nodup := by
    have := z.tree.child_once P
    rwa [show h.hier.children P = _ from z.at'.inside] at this
  rcases z.live_cases hn with ⟨hn, hX⟩ | rfl | rfl
  · have hc := z.valid.children n hn
    by_cases hG : n = G
    · subst hG
      unfold ChildrenOk at hc ⊢
      rw [z.at'.op] at hc
      rw [z.op_G, z.kids_G]
      obtain ⟨entry, exit, rest, o', r, h1, h2, h3, h4⟩ := hc
      rw [z.at'.children] at h1; cases h1
      have hEl := (z.tree.parent_live _ _ z.at'.upE).1
      refine ⟨E, P, more.filter (· ≠ P), o', r, rfl, ?_, z.op_P, ?_⟩
      · rw [z.ops hEl z.at'.EX ?_ z.at'.EP ?_]; exact h2
        · rintro rfl; rw [z.at'.op] at h2; cases h2
        · rintro rfl; rw [z.at'.opO] at h2; cases h2
      · intro c hc outs e
        obtain ⟨c1, c2⟩ := List.mem_filter.1 hc
        have c2 : c ≠ P := by simpa using c2
        have hm : c ∈ h.children n := by rw [z.at'.children]; simp [c1]
        have hu := z.child_up hm
        have cX : c ≠ X := by
          rintro rfl
          exact (List.nodup_cons.1 (List.nodup_cons.1 z.at'.nodup).2).1 c1
        have cG : c ≠ n := by rintro rfl; exact z.tree.acyclic _ _ hu (.refl _)
        have co : c ≠ o := by
          rintro rfl; rw [z.at'.upO] at hu; exact z.at'.PG (Option.some.inj hu)
        rw [z.ops (z.child_live hm) cX cG c2 co] at e
        exact h4 c c1 outs e
    by_cases hP : n = P
    · subst hP
      unfold ChildrenOk
      rw [z.op_P]
      exact z.kids_P
    by_cases ho : n = o
    · subst ho
      unfold ChildrenOk at hc ⊢
      rw [z.at'.opO] at hc
      rw [z.op_o, z.kids hn hX hG hP (Ne.symm z.po)]; exact hc
    by_cases hp : n = p
    · subst hp
      have hcon := z.valid.contains G n z.at'.parent
      rw [z.at'.op] at hcon
      have key : ∀ {a b : List Types.Ty}, (∃ inp out rest, h.children n = inp :: out :: rest ∧
          h.ops inp = .input a ∧ h.ops out = .output b ∧ ∀ c ∈ rest, ¬ IsIO (h.ops c)) →
          ∃ inp out rest, g.children n = inp :: out :: rest ∧
          g.ops inp = .input a ∧ g.ops out = .output b ∧ ∀ c ∈ rest, ¬ IsIO (g.ops c) := by
        rintro a b ⟨inp, out, rest, h1, h2, h3, h4⟩
        refine ⟨inp, out, rest ++ [d], by rw [z.kids_p, h1]; rfl, ?_, ?_, ?_⟩
        · rcases z.op_child_p (c := inp) (by rw [h1]; simp) with e | e
          · rw [e, h2]
          · rw [e, z.at'.op] at h2; cases h2
        · rcases z.op_child_p (c := out) (by rw [h1]; simp) with e | e
          · rw [e, h3]
          · rw [e, z.at'.op] at h3; cases h3
        · intro c hc
          rcases List.mem_append.1 hc with hc | hc
          · rcases z.op_child_p (c := c) (by rw [h1]; simp [hc]) with e | e
            · rw [e]; exact h4 c hc
            · rw [e, z.op_G]; rintro (⟨_, e⟩ | ⟨_, e⟩) <;> cases e
          · rw [List.mem_singleton] at hc
            rw [hc, z.op_d]; rintro (⟨_, e⟩ | ⟨_, e⟩) <;> cases e
      unfold ChildrenOk at hc ⊢
      rw [z.op_p]
      cases hop : h.ops n with
      | funcDefn a b => rw [hop] at hc; exact key hc
      | dfg a => rw [hop] at hc; exact key hc
      | case a => rw [hop] at hc; exact key hc
      | tailLoop a b c => rw [hop] at hc; exact key hc
      | dataflowBlock a b c => rw [hop] at hc; exact key hc
      | _ => rw [hop] at hcon; simp [MayContain, body] at hcon
    have same := fun c hc => z.op_child (c := c) hG hP hp hc
    have key : ∀ {a b : List Types.Ty}, (∃ inp out rest, h.children n = inp :: out :: rest ∧
        h.ops inp = .input a ∧ h.ops out = .output b ∧ ∀ c ∈ rest, ¬ IsIO (h.ops c)) →
        ∃ inp out rest, h.children n = inp :: out :: rest ∧
        g.ops inp = .input a ∧ g.ops out = .output b ∧ ∀ c ∈ rest, ¬ IsIO (g.ops c) := by
      rintro a b ⟨inp, out, rest, h1, h2, h3, h4⟩
      refine ⟨inp, out, rest, h1, ?_, ?_, ?_⟩
      · rw [same inp (by rw [h1]; simp), h2]
      · rw [same out (by rw [h1]; simp), h3]
      · intro c hc
        rw [same c (by rw [h1]; simp [hc])]; exact h4 c hc
    unfold ChildrenOk at hc ⊢
    rw [z.ops hn hX hG hP ho, z.kids hn hX hG hP hp]
    cases hop : h.ops n with
    | module => trivial
    | conditional a b c =>
      rw [hop] at hc
      refine ⟨hc.1, ?_⟩
      rw [← hc.2]
      exact List.map_congr_left fun x hx => same x hx
    | cfg sig' =>
      rw [hop] at hc
      obtain ⟨entry, exit, rest, o', r, h1, h2, h3, h4⟩ := hc
      refine ⟨entry, exit, rest, o', r, h1, ?_, ?_, ?_⟩
      · rw [same entry (by rw [h1]; simp), h2]
      · rw [same exit (by rw [h1]; simp), h3]
      · intro c hc
        rw [same c (by rw [h1]; simp [hc])]; exact h4 c hc
    | funcDefn a b => rw [hop] at hc; exact key hc
    | dfg a => rw [hop] at hc; exact key hc
    | case a => rw [hop] at hc; exact key hc
    | tailLoop a b c => rw [hop] at hc; exact key hc
    | dataflowBlock a b c => rw [hop] at hc; exact key hc
    | _ => rw [hop] at hc; exact hc
  · unfold ChildrenOk
    rw [z.op_d, z.kids_d]
    have hcP := z.valid.children P z.at'.liveP
    unfold ChildrenOk at hcP
    rw [z.at'.opP] at hcP
    obtain ⟨i', o', rest, q1, _, _, q4⟩ := hcP
    rw [z.at'.inside] at q1; cases q1
    have hio : i ≠ o := fun e => by rw [e] at hndP; simp at hndP
    have opc : ∀ c ∈ h.children P, c ≠ o → g.ops c = h.ops c := by
      intro c hc hco
      obtain ⟨q1, q2, q3, _⟩ := z.at'.not_in (z.child_up hc) (.refl _)
      exact z.ops (z.child_live hc) q3 q1 q2 hco
    refine ⟨i, o, inner ++ [w], rfl, ?_, z.op_o, ?_⟩
    · rw [opc i (by rw [z.at'.inside]; simp) hio]; exact z.at'.opI
    · intro c hc
      rcases List.mem_append.1 hc with hc | hc
      · rw [opc c (by rw [z.at'.inside]; simp [hc]) (by rintro rfl; simp [hc] at hndP)]
        exact q4 c hc
      · rw [List.mem_singleton] at hc
        rw [hc, z.op_w]
        rintro (⟨_, e⟩ | ⟨_, e⟩) <;> cases e
  · unfold ChildrenOk
    rw [z.op_w]
    change g.children n = []
    exact z.kids_w

theorem v_contains {n q : Nat} (hp : g.hier.parent n = some q) : MayContain (g.ops q) (g.ops n) := by
  have hn := (z.treeG.parent_live _ _ hp).1
  rcases z.live_cases hn with ⟨hn, hX⟩ | rfl | rfl
  · have hnr : n ≠ h.moduleRoot := by
      intro e
      rw [e, ← z.put.roots.1, z.treeG.root_top] at hp; cases hp
    obtain ⟨r, hr⟩ := z.tree.has_parent n hn hnr
    rw [z.up_some hr hX] at hp
    have hc := z.valid.contains n r hr
    by_cases e : r = P
    · rw [if_pos e] at hp; cases hp
      rw [e] at hr
      rw [e, z.at'.opP] at hc
      have hc : (body (.dataflowBlock ins other [row])).isSome = true ∧ DataflowChild (h.ops n) := hc
      rw [z.op_d]
      refine ⟨rfl, ?_⟩
      by_cases ho : n = o
      · subst ho; rw [z.op_o]; trivial
      · obtain ⟨q1, q2, q3, _⟩ := z.at'.not_in hr (.refl _)
        rw [z.ops hn q3 q1 q2 ho]; exact hc.2
    · rw [if_neg e] at hp
      have hp : r = q := Option.some.inj hp
      subst hp
      have hql := (z.tree.parent_live _ _ hr).2
      have hqo : r ≠ o := by rintro rfl; exact z.o_leaf hr
      have hqX : r ≠ X := by rintro rfl; exact z.at'.X_leaf hr
      have hno : n ≠ o := by rintro rfl; rw [z.at'.upO] at hr; cases hr; exact e rfl
      by_cases hG : r = G
      · subst hG
        rw [z.op_G]
        rw [z.at'.op] at hc
        by_cases hP : n = P
        · subst hP; rw [z.op_P]; trivial
        · rw [z.ops hn hX (by rintro rfl; exact z.tree.acyclic _ _ hr (.refl _)) hP hno]; exact hc
      · have hnP : n ≠ P := by rintro rfl; rw [z.at'.upP] at hr; cases hr; exact hG rfl
        rw [z.ops hql hqX hG e hqo]
        by_cases hnG : n = G
        · subst hnG
          rw [z.op_G]; rw [z.at'.op] at hc
          revert hc
          cases h.ops r <;> simp [MayContain, DataflowChild]
        · rw [z.ops hn hX hnG hnP hno]; exact hc
  · rw [z.up_d] at hp; cases hp
    have hc := z.valid.contains G p z.at'.parent
    rw [z.op_p, z.op_d]; rw [z.at'.op] at hc
    revert hc
    cases h.ops p <;> simp [MayContain, DataflowChild]
  · rw [z.up_w] at hp; cases hp
    rw [z.op_d, z.op_w]; exact ⟨rfl, trivial⟩

theorem v_acyclic {q : Nat} (hq : g.live q = true) (hb : (body (g.ops q)).isSome = true) (n : Nat) :
    ¬ Relation.TransGen (RegionEdge g q) n n := by
  rcases z.live_cases hq with ⟨hq, hX⟩ | rfl | rfl
  · have hG : q ≠ G := by rintro rfl; rw [z.op_G] at hb; cases hb
    have hP : q ≠ P := by rintro rfl; rw [z.op_P] at hb; cases hb
    have ho : q ≠ o := by rintro rfl; rw [z.op_o] at hb; cases hb
    rw [z.ops hq hX hG hP ho] at hb
    by_cases hp : q = p
    · subst hp
      have hGd : G ≠ d := z.ne_d z.at'.liveG
      intro hc
      suffices hr : ∀ a b, RegionEdge g q a b →
          RegionEdge h q ((fun x => if x = d then G else x) a) ((fun x => if x = d then G else x) b) ∨ (a = G ∧ b = d) by
        rcases contract (φ := fun x => if x = d then G else x) hGd (by simp) hr hc with h1 | ⟨e1, e2⟩
        · exact z.valid.acyclic q hq hb _ h1
        · exact hGd (e1.symm.trans e2)
      rintro a b ⟨m1, m2, l, hl, rfl, rfl⟩
      rw [z.kids_p] at m1 m2
      have kid : ∀ {x}, x ∈ h.children q ++ [d] → x ≠ d → x ∈ h.children q := by
        intro x hx hne
        rcases List.mem_append.1 hx with hx | hx
        · exact hx
        · exact absurd (List.mem_singleton.1 hx) hne
      have hGk : G ∈ h.children q := (z.tree.child_iff _ _).2 z.at'.parent
      rcases z.mem_links.1 hl with ⟨k, hk, k1, rfl⟩ | ⟨r, _, rfl⟩ | ⟨r, _, rfl⟩
      · obtain ⟨_, f2, f3, _⟩ := moved_eq (G := G) (d := d) (o := o) (w := w) (len := row.length) k
        rw [f2] at m1 ⊢
        rw [f3] at m2 ⊢
        left
        obtain ⟨l1, l2⟩ := z.live_link hk
        have hdst : (redirect o w row.length k) = k := by
          rcases redirect_dst (o := o) (w := w) (len := row.length) k with ⟨_, e⟩ | ⟨_, _, e⟩ | ⟨_, j, _, e⟩
          · exact e
          · rw [e] at m2
            exact absurd (kid m2 (Ne.symm z.dw)) z.not_w
          · rw [e] at m2
            have := z.child_up (kid m2 (z.ne_d z.at'.live_o))
            rw [z.at'.upO] at this; cases this; exact absurd rfl hP
        rw [hdst] at m2 ⊢
        have hd2 := z.ne_d l2
        simp only [if_neg hd2]
        by_cases e : k.src = G
        · simp only [if_pos e, if_true]
          exact ⟨hGk, kid m2 hd2, k, hk, e, rfl⟩
        · simp only [if_neg e, if_neg (z.ne_d l1)]
          rw [if_neg e] at m1
          exact ⟨kid m1 (z.ne_d l1), kid m2 hd2, k, hk, rfl, rfl⟩
      · exact absurd (kid m1 (Ne.symm z.dw)) z.not_w
      · exact .inr ⟨rfl, rfl⟩
    · have : RegionEdge g q = RegionEdge h q := by
        funext x y; exact propext (z.region hq hX hG hP hp)
      rw [this]
      exact z.valid.acyclic q hq hb n
  · have how : w ≠ o := Ne.symm (z.ne_w z.at'.live_o)
    intro hc
    suffices hr : ∀ a b, RegionEdge g q a b →
        RegionEdge h P ((fun x => if x = w then o else x) a) ((fun x => if x = w then o else x) b) ∨ (a = w ∧ b = o) by
      rcases contract (φ := fun x => if x = w then o else x) how (by simp) hr hc with h1 | ⟨e1, e2⟩
      · exact z.valid.acyclic P z.at'.liveP (by rw [z.at'.opP]; rfl) _ h1
      · exact how (e1.symm.trans e2)
    rintro a b ⟨m1, m2, l, hl, rfl, rfl⟩
    rw [z.kids_d] at m1 m2
    have kid : ∀ {x}, x ∈ i :: o :: (inner ++ [w]) → x ≠ w → x ∈ h.children P := by
      intro x hx hne
      rw [z.at'.inside]
      simpa [hne] using hx
    have notd : q ∉ i :: o :: (inner ++ [w]) := fun hx => by
      exact z.not_d (kid hx z.dw)
    have ok : o ∈ h.children P := by rw [z.at'.inside]; simp
    rcases z.mem_links.1 hl with ⟨k, hk, k1, rfl⟩ | ⟨r, _, rfl⟩ | ⟨r, _, rfl⟩
    · obtain ⟨_, f2, f3, _⟩ := moved_eq (G := G) (d := q) (o := o) (w := w) (len := row.length) k
      rw [f2] at m1 ⊢
      rw [f3] at m2 ⊢
      left
      obtain ⟨l1, l2⟩ := z.live_link hk
      by_cases e : k.src = G
      · rw [if_pos e] at m1; exact absurd m1 notd
      rw [if_neg e] at m1 ⊢
      have hw := z.ne_w l1
      simp only [if_neg hw]
      rcases redirect_dst (o := o) (w := w) (len := row.length) k with ⟨_, e⟩ | ⟨e', _, e⟩ | ⟨e', j, _, e⟩
      · rw [e] at m2 ⊢
        simp only [if_neg (z.ne_w l2)]
        exact ⟨kid m1 hw, kid m2 (z.ne_w l2), k, hk, rfl, rfl⟩
      · rw [e]; simp only [if_true]
        exact ⟨kid m1 hw, ok, k, hk, rfl, e'⟩
      · rw [e]; simp only [if_neg (Ne.symm how)]
        exact ⟨kid m1 hw, ok, k, hk, rfl, e'⟩
    · exact .inr ⟨rfl, rfl⟩
    · exact absurd m2 notd
  · rw [z.op_w] at hb; cases hb

/-! ## Links -/

/-- The way from `x` up to something inside the block, or the block itself. -/
theorem above_both {x a : Nat} (ha : Above h.hier.parent x a) (h1 : Above h.hier.parent a P) :
    Above g.hier.parent (if x = P then d else x) (if a = P then d else a) := by
  by_cases e : a = P
  · rw [if_pos e]; exact z.above_d (ha.trans h1)
  · have hx : x ≠ P := by
      rintro rfl
      rcases above_cases ha with e' | ⟨r, hr, h3⟩
      · exact e e'.symm
      · exact z.tree.acyclic _ _ hr (h3.trans h1)
    rw [if_neg e, if_neg hx]; exact z.above_in ha h1 e

theorem region_G {x y : Nat} (he : RegionEdge g G x y) : RegionEdge h G x y := by
  obtain ⟨m1, m2, l, hl, rfl, rfl⟩ := he
  have kid : ∀ {c}, c ∈ g.children G → c ∈ h.children G := by
    intro c hc
    rw [z.kids_G] at hc
    rw [z.at'.children]
    simp only [List.mem_cons, List.mem_filter] at hc ⊢
    rcases hc with rfl | rfl | hc
    · simp
    · simp [z.at'.mem]
    · simp [hc.1]
  have m1 := kid m1
  have m2 := kid m2
  have ho : o ∉ h.children G := fun hc => by
    have := z.child_up hc
    rw [z.at'.upO] at this; exact z.at'.PG (Option.some.inj this)
  rcases z.mem_links.1 hl with ⟨k, hk, k1, rfl⟩ | ⟨r, _, rfl⟩ | ⟨r, _, rfl⟩
  · obtain ⟨_, f2, f3, _⟩ := moved_eq (G := G) (d := d) (o := o) (w := w) (len := row.length) k
    rw [f2] at m1 ⊢
    rw [f3] at m2 ⊢
    by_cases e : k.src = G
    · rw [if_pos e] at m1; exact absurd m1 z.not_d
    · rw [if_neg e] at m1 ⊢
      rcases redirect_dst (o := o) (w := w) (len := row.length) k with ⟨_, e⟩ | ⟨_, _, e⟩ | ⟨_, j, _, e⟩
      · rw [e] at m2 ⊢; exact ⟨m1, m2, k, hk, rfl, rfl⟩
      · rw [e] at m2; exact absurd m2 z.not_w
      · rw [e] at m2; exact absurd m2 ho
  · exact absurd m2 ho
  · exact absurd m2 z.not_d

theorem keep_G {x y : Nat} (he : RegionEdge h G x y) (hx : x ≠ P) (hy : y ≠ X) : RegionEdge g G x y := by
  obtain ⟨m1, m2, l, hl, rfl, rfl⟩ := he
  have kid : ∀ {c}, c ∈ h.children G → c ≠ X → c ∈ g.children G := by
    intro c hc hne
    rw [z.at'.children] at hc
    rw [z.kids_G]
    simp only [List.mem_cons, List.mem_filter] at hc ⊢
    by_cases e : c = P
    · simp [e]
    · rcases hc with hc | hc | hc
      · simp [hc]
      · exact absurd hc hne
      · simp [hc, e]
  have ho : l.dst ≠ o := fun e => by
    have := z.child_up m2
    rw [e, z.at'.upO] at this; exact z.at'.PG (Option.some.inj this)
  have hG : l.src ≠ G := fun e => by
    have := z.child_up m1
    rw [e] at this; exact z.tree.acyclic _ _ this (.refl _)
  refine ⟨kid m1 (z.src_X hl), kid m2 hy, passOn G d (redirect o w row.length l), z.mem_links.2 (.inl ⟨l, hl, hx, rfl⟩), ?_, ?_⟩
  · rw [(moved_eq l).2.1, if_neg hG]
  · rw [(moved_eq l).2.2.1, redirect_ne ho]

theorem reach_keep {y : Nat} (hr : Relation.ReflTransGen (RegionEdge h G) E y) : y = P ∨ y = X ∨
    (Relation.ReflTransGen (Avoid (RegionEdge h G) (· ≠ P)) E y ∧ Relation.ReflTransGen (RegionEdge g G) E y) := by
  induction hr with
  | refl => exact .inr (.inr ⟨.refl, .refl⟩)
  | @tail x y _ he ih =>
    by_cases hyP : y = P
    · exact .inl hyP
    by_cases hyX : y = X
    · exact .inr (.inl hyX)
    have hxP : x ≠ P := by
      rintro rfl
      obtain ⟨_, _, l, hl, e1, e2⟩ := he
      rw [z.at'.succ l hl e1] at e2
      exact hyX e2.symm
    rcases ih with e | e | ⟨i1, i2⟩
    · exact absurd e hxP
    · obtain ⟨_, _, l, hl, e1, _⟩ := he
      exact absurd (e1.trans e) (z.src_X hl)
    · exact .inr (.inr ⟨i1.tail ⟨he, hyP⟩, i2.tail (z.keep_G he hxP hyX)⟩)

theorem srcKind_moved {k : Link} (hk : k ∈ h.links) (k1 : k.src ≠ P) :
    srcKind g (passOn G d (redirect o w row.length k)) = srcKind h k := by
  obtain ⟨f1, f2, _⟩ := moved_eq (G := G) (d := d) (o := o) (w := w) (len := row.length) k
  unfold srcKind
  rw [f1, f2]
  by_cases e : k.src = G
  · rw [if_pos e, z.out_d, e]
  · rw [if_neg e, z.out_ports (z.live_link hk).1 (z.src_X hk) e k1]

theorem gup_src {k : Link} {q : Nat} (hk : k ∈ h.links) (hq : h.hier.parent k.src = some q) :
    g.hier.parent (passOn G d (redirect o w row.length k)).src = some (if q = P then d else q) := by
  rw [(moved_eq k).2.1]
  by_cases e : k.src = G
  · rw [if_pos e, z.up_d]
    rw [e, z.at'.parent] at hq; cases hq
    rw [if_neg z.pP]
  · rw [if_neg e]; exact z.up_some hq (z.src_X hk)

theorem gup_dst (k : Link) : g.hier.parent (passOn G d (redirect o w row.length k)).dst = g.hier.parent k.dst := by
  rw [(moved_eq k).2.2.1]
  rcases redirect_dst (o := o) (w := w) (len := row.length) k with ⟨e', e⟩ | ⟨e', e0, e⟩ | ⟨e', j, ej, e⟩
  · rw [e]
  · rw [e, e', z.gup_o]; exact z.up_w
  · rw [e, e']

theorem not_P : ¬ Above h.hier.parent p P := fun ha =>
  z.tree.acyclic _ _ z.at'.upP (.step z.at'.parent ha)

theorem above_leaf {r : Nat} (hr : r ≠ X) : ¬ Above h.hier.parent r X := fun ha => by
  obtain ⟨c, _, hc⟩ := ha.last hr
  exact z.at'.X_leaf hc

/-- Where a link may go, it may go afterwards. -/
theorem edge {k : Link} {kind : Kind} (hk : k ∈ h.links) (k1 : k.src ≠ P) (hsk : srcKind h k = some kind)
    (he : EdgeOk h k kind) : EdgeOk g (passOn G d (redirect o w row.length k)) kind := by
  obtain ⟨q, hq, hor⟩ := he
  have hdX := z.dst_X hk k1
  have hsX := z.src_X hk
  refine ⟨if q = P then d else q, z.gup_src hk hq, ?_⟩
  rcases hor with h3 | ⟨r, a, hr, hra, h3⟩
  · exact .inl (by rw [z.gup_dst]; exact z.up_some h3 hdX)
  have hrX : r ≠ X := by rintro rfl; exact z.at'.X_leaf hr
  have haX : a ≠ X := by rintro rfl; exact z.above_leaf hrX hra
  have hao : a ≠ o := by
    rintro rfl
    by_cases e : r = a
    · rw [e] at hr; exact z.o_leaf hr
    · obtain ⟨c, _, hc⟩ := hra.last e
      exact z.o_leaf hc
  have hqX : q ≠ X := by rintro rfl; exact z.at'.X_leaf hq
  have pcfg : ∀ s, h.ops p ≠ .cfg s := fun s e => by
    have hc := z.valid.contains G p z.at'.parent
    rw [z.at'.op, e] at hc
    exact hc
  have order : ∀ k2 ∈ h.links, k2.src = k.src → k2.dst = a → srcKind h k2 = some .stateOrder →
      ∃ o' ∈ g.links, o'.src = (passOn G d (redirect o w row.length k)).src ∧ o'.dst = a ∧ srcKind g o' = some .stateOrder := by
    intro k2 hk2 e1 e2 e3
    refine ⟨passOn G d (redirect o w row.length k2), z.mem_links.2 (.inl ⟨k2, hk2, by rw [e1]; exact k1, rfl⟩), ?_, ?_, ?_⟩
    · rw [(moved_eq k2).2.1, (moved_eq k).2.1, e1]
    · rw [(moved_eq k2).2.2.1, redirect_ne (by rw [e2]; exact hao), e2]
    · rw [z.srcKind_moved hk2 (by rw [e1]; exact k1), e3]
  have other' : ∀ {c sg}, h.ops c = .cfg sg → c ≠ P ∧ c ≠ X ∧ c ≠ o ∧ c ≠ p := by
    intro c sg e
    refine ⟨?_, ?_, ?_, ?_⟩
    · rintro rfl; rw [z.at'.opP] at e; cases e
    · rintro rfl; rw [z.at'.opX] at e; cases e
    · rintro rfl; rw [z.at'.opO] at e; cases e
    · rintro rfl; exact pcfg _ e
  have same : ∀ {c : Nat}, h.live c = true → c ≠ X → c ≠ G → c ≠ P → c ≠ p → RegionEdge g c = RegionEdge h c := by
    intro c c1 c2 c3 c4 c5
    funext x y; exact propext (z.region c1 c2 c3 c4 c5)
  by_cases hin : Above h.hier.parent r P
  · by_cases hsrc : Above h.hier.parent k.src P
    · -- both ends inside
      have hqP := z.in_parent hsrc k1 hq
      rcases h3 with ⟨h3, h4⟩ | ⟨h3, ⟨h4, k2, hk2, e1, e2, e3⟩ | ⟨c, sg, entry, rest, n1, p1, p2, p3, p4, p5⟩⟩
      · obtain ⟨a1, a2⟩ := z.in_child h4 hqP
        refine .inr ⟨_, _, by rw [z.gup_dst]; exact z.up_some hr hdX, z.above_both hra a1, .inl ⟨h3, ?_⟩⟩
        rw [if_neg a2]; exact z.up_some h4 haX
      · obtain ⟨a1, a2⟩ := z.in_child h4 hqP
        refine .inr ⟨_, _, by rw [z.gup_dst]; exact z.up_some hr hdX, z.above_both hra a1, .inr ⟨h3, .inl ⟨?_, ?_⟩⟩⟩
        · rw [if_neg a2]; exact z.up_some h4 haX
        · rw [if_neg a2]; exact order k2 hk2 e1 e2 e3
      · have hqne : q ≠ P := by
          rintro rfl
          rw [z.at'.upP] at p1; cases p1
          exact n1 (same_child z.tree hra hin p2 z.at'.upP)
        have hc := z.in_parent hqP hqne p1
        obtain ⟨o1, o2, o3, o4⟩ := other' p3
        obtain ⟨n2, _, n4⟩ := z.in_ne hc o1
        obtain ⟨a1, a2⟩ := z.in_child p2 hc
        have hcl := (z.tree.parent_live _ _ p1).2
        refine .inr ⟨_, _, by rw [z.gup_dst]; exact z.up_some hr hdX, z.above_both hra a1, .inr ⟨h3, .inr ⟨c, sg, entry, rest, ?_⟩⟩⟩
        rw [if_neg a2, if_neg hqne]
        refine ⟨n1, by rw [z.up_some p1 hqX, if_neg o1], by rw [z.up_some p2 haX, if_neg o1],
          by rw [z.ops hcl o2 n2 o1 o3]; exact p3, by rw [z.kids hcl o2 n2 o1 o4]; exact p4, ?_⟩
        rw [same hcl o2 n2 o1 o4]; exact p5
    · -- into the block from outside the control-flow graph
      obtain ⟨d1, d2⟩ := z.in_child hr hin
      obtain ⟨c1, kind', c2, c3⟩ := z.at'.closed k hk d1 d2 hsrc
      rw [hsk] at c2; cases c2
      have h4 : h.hier.parent a = some q := by
        rcases h3 with h3 | ⟨⟨t, rfl, _⟩, _⟩
        · exact h3.2
        · cases c3
      have notin : ¬ Above h.hier.parent a P := fun ha => by
        by_cases e : a = P
        · rw [e, z.at'.upP] at h4; cases h4
          exact c1 (.of_parent hq)
        · exact hsrc (.step hq (z.in_parent ha e h4))
      have hPa := (above_order hra hin).resolve_left notin
      rcases above_cases hPa with e | ⟨G', hG', hPa⟩
      · exact absurd (by rw [e]; exact .refl _) notin
      rw [z.at'.upP] at hG'; cases hG'
      rcases above_cases hPa with e | ⟨p', hp', hPa⟩
      · rw [← e, z.at'.parent] at h4; cases h4
        refine .inr ⟨_, d, by rw [z.gup_dst]; exact z.up_some hr hdX, z.above_d hin, .inl ⟨c3, ?_⟩⟩
        rw [z.up_d, if_neg z.pP]
      · rw [z.at'.parent] at hp'; cases hp'
        refine .inr ⟨_, a, by rw [z.gup_dst]; exact z.up_some hr hdX, (z.above_d hin).trans (.step z.up_d ?_),
          .inl ⟨c3, z.up_some h4 haX⟩⟩
        exact z.above_out hPa (fun hx => absurd hx z.not_P) z.pX
  · -- not into the block
    have hrP : r ≠ P := by rintro rfl; exact hin (.refl _)
    have up' : Above g.hier.parent r a := z.above_out hra (fun hx => absurd hx hin) hrX
    have hr' : g.hier.parent (passOn G d (redirect o w row.length k)).dst = some r := by
      rw [z.gup_dst, z.up_some hr hdX, if_neg hrP]
    have haP : ¬ Above h.hier.parent a P := fun hx => hin (hra.trans hx)
    refine .inr ⟨r, a, hr', up', ?_⟩
    rcases h3 with ⟨h3, h4⟩ | ⟨h3, ⟨h4, k2, hk2, e1, e2, e3⟩ | ⟨c, sg, entry, rest, n1, p1, p2, p3, p4, p5⟩⟩
    · exact .inl ⟨h3, z.up_some h4 haX⟩
    · exact .inr ⟨h3, .inl ⟨z.up_some h4 haX, order k2 hk2 e1 e2 e3⟩⟩
    · obtain ⟨o1, o2, o3, o4⟩ := other' p3
      have hcl := (z.tree.parent_live _ _ p1).2
      have hqne : q ≠ P := by
        rintro rfl
        rw [z.at'.upP] at p1; cases p1
        rw [z.at'.children] at p4; cases p4
        obtain ⟨r1, r2⟩ := dominates_iff.1 p5
        rcases z.reach_keep r1 with e | e | ⟨r3, _⟩
        · exact n1 e
        · exact haX e
        · exact r2 ⟨z.at'.EP, r3⟩
      rw [if_neg hqne]
      by_cases hcG : c = G
      · subst hcG
        rw [z.at'.children] at p4; cases p4
        refine .inr ⟨h3, .inr ⟨c, _, E, _, n1, by rw [z.up_some p1 hqX, if_neg o1], by rw [z.up_some p2 haX, if_neg o1],
          z.op_G, z.kids_G, ?_⟩⟩
        obtain ⟨r1, r2⟩ := dominates_iff.1 p5
        refine dominates_iff.2 ⟨?_, fun ⟨s1, s2⟩ => r2 ⟨s1, reach_mono s2 fun x y hxy => ⟨z.region_G hxy.1, hxy.2⟩⟩⟩
        rcases z.reach_keep r1 with e | e | ⟨_, r4⟩
        · exact absurd (by rw [e]; exact .refl _) haP
        · exact absurd e haX
        · exact r4
      · refine .inr ⟨h3, .inr ⟨c, sg, entry, rest, n1, by rw [z.up_some p1 hqX, if_neg o1], by rw [z.up_some p2 haX, if_neg o1],
          by rw [z.ops hcl o2 hcG o1 o3]; exact p3, by rw [z.kids hcl o2 hcG o1 o4]; exact p4, ?_⟩⟩
        rw [same hcl o2 hcG o1 o4]; exact p5

theorem inputs_w : (g.ops w).ports .incoming = [.value (sumOf [row]), .stateOrder] := by rw [z.op_w]; rfl
theorem outputs_w : (g.ops w).ports .outgoing = row.map .value ++ [.stateOrder] := by rw [z.op_w]; rfl
theorem inputs_d : (g.ops d).ports .incoming = ins.map .value ++ [.stateOrder] := by rw [z.op_d]; rfl
theorem outputs_G : (g.ops G).ports .outgoing = ins.map .value ++ [.stateOrder] := by rw [z.op_G]; rfl
theorem inputs_o : (g.ops o).ports .incoming = (row ++ other).map .value ++ [.stateOrder] := by
  rw [z.op_o, z.at'.outs]; rfl
theorem old_inputs_o : (h.ops o).ports .incoming = .value (sumOf [row]) :: (other.map .value ++ [.stateOrder]) := by
  rw [z.at'.opO]; rfl

theorem input_first {k : Nat} (hk : k < row.length) : ((g.ops o).ports .incoming)[k]? = some (.value row[k]) := by
  rw [z.inputs_o, List.map_append, List.append_assoc, List.getElem?_append_left (by simpa using hk)]
  simp [hk]

theorem input_rest (j : Nat) : ((g.ops o).ports .incoming)[row.length + j]? = ((h.ops o).ports .incoming)[j + 1]? := by
  rw [z.inputs_o, z.old_inputs_o, List.map_append, List.append_assoc, List.getElem?_append_right (by simp)]
  simp

theorem v_kinds {l : Link} (hl : l ∈ g.links) : ∃ kind, srcKind g l = some kind ∧
    ((g.ops l.dst).ports .incoming)[l.dstPort]? = some kind ∧ EdgeOk g l kind := by
  rcases z.mem_links.1 hl with ⟨k, hk, k1, rfl⟩ | ⟨q, hq, rfl⟩ | ⟨q, hq, rfl⟩
  · obtain ⟨kind, h1, h2, h3⟩ := z.valid.kinds k hk
    obtain ⟨l1, l2⟩ := z.live_link hk
    refine ⟨kind, by rw [z.srcKind_moved hk k1, h1], ?_, z.edge hk k1 h1 h3⟩
    rw [(moved_eq k).2.2.1, (moved_eq k).2.2.2]
    rcases redirect_dst (o := o) (w := w) (len := row.length) k with ⟨e', e⟩ | ⟨e', e0, e⟩ | ⟨e', j, ej, e⟩
    · rw [e, z.in_ports l2 (z.dst_X hk k1) e']; exact h2
    · rw [e]
      rw [e', e0, z.old_inputs_o] at h2
      rw [z.inputs_w]; exact h2
    · rw [e]
      rw [e', ej] at h2
      rw [z.input_rest]; exact h2
  · refine ⟨.value row[q], ?_, z.input_first hq, d, z.up_w, .inl z.gup_o⟩
    unfold srcKind
    simp only [z.outputs_w]
    rw [List.getElem?_append_left (by simpa using hq)]
    simp [hq]
  · have hlt : q < (ins.map Kind.value ++ [Kind.stateOrder]).length := by simpa using hq
    refine ⟨(ins.map Kind.value ++ [Kind.stateOrder])[q], ?_, ?_, p, z.gup_G, .inl z.up_d⟩
    · unfold srcKind
      simp only [z.outputs_G]
      exact List.getElem?_eq_getElem hlt
    · simp only [z.inputs_d]
      exact List.getElem?_eq_getElem hlt

/-! ## Types -/

theorem decls {n : Nat} {D : List Types.Term} (hd : DeclsAt g n D) :
    (h.live n = true → n ≠ X → DeclsAt h n D) ∧ (n = d → DeclsAt h G D) := by
  have old : ∀ {n q : Nat}, g.hier.parent n = some q → h.live n = true → n ≠ X →
      ∃ r, h.hier.parent n = some r ∧ q = (if r = P then d else r) ∧ h.live r = true ∧ r ≠ X ∧ r ≠ o := by
    intro n q hp h1 h2
    have hnr : n ≠ h.moduleRoot := by
      intro e
      rw [e, ← z.put.roots.1, z.treeG.root_top] at hp; cases hp
    obtain ⟨r, hr⟩ := z.tree.has_parent n h1 hnr
    rw [z.up_some hr h2] at hp
    exact ⟨r, hr, (Option.some.inj hp).symm, (z.tree.parent_live _ _ hr).2, by rintro rfl; exact z.at'.X_leaf hr,
      by rintro rfl; exact z.o_leaf hr⟩
  induction hd with
  | root =>
    rw [z.put.roots.1]
    exact ⟨fun _ _ => .root, fun e => absurd e (z.ne_d z.tree.root_live)⟩
  | @inside n q name sg hp ho =>
    constructor
    · intro h1 h2
      obtain ⟨r, hr, e, hrl, hrX, hro⟩ := old hp h1 h2
      by_cases hrP : r = P
      · rw [if_pos hrP] at e
        rw [e, z.op_d] at ho; cases ho
      · rw [if_neg hrP] at e
        subst e
        refine .inside hr (name := name) ?_
        rw [← ho]; symm
        refine z.ops hrl hrX ?_ hrP hro
        rintro rfl; rw [z.op_G] at ho; cases ho
    · rintro rfl
      rw [z.up_d] at hp; cases hp
      rw [z.op_p] at ho
      exact .inside z.at'.parent ho
  | @inherited n q D hp ho _ ih =>
    constructor
    · intro h1 h2
      obtain ⟨r, hr, e, hrl, hrX, hro⟩ := old hp h1 h2
      by_cases hrP : r = P
      · rw [if_pos hrP] at e
        rw [hrP] at hr
        refine .inherited hr (fun _ _ e => by rw [z.at'.opP] at e; cases e) ?_
        exact .inherited z.at'.upP (fun _ _ e => by rw [z.at'.op] at e; cases e) (ih.2 e)
      · rw [if_neg hrP] at e
        subst e
        refine .inherited hr ?_ (ih.1 hrl hrX)
        intro name sg e'
        refine ho name sg ?_
        rw [← e']
        refine z.ops hrl hrX ?_ hrP hro
        rintro rfl; rw [z.at'.op] at e'; cases e'
    · rintro rfl
      rw [z.up_d] at hp; cases hp
      refine .inherited z.at'.parent ?_ (ih.1 z.live_p z.pX)
      intro name sg e'
      exact ho name sg (by rw [z.op_p]; exact e')

theorem decls_w {D : List Types.Term} (hd : DeclsAt g w D) : DeclsAt h o D :=
  (z.decls (decls_sibling z.treeG z.up_w z.gup_o hd)).1 z.at'.live_o z.oX

theorem row_valid {D : List Types.Term} (hd : DeclsAt g w D) : ∀ t ∈ row, t.validate C.types D = true := by
  have hk : ((h.ops o).ports .incoming)[0]? = some (.value (sumOf [row])) := by rw [z.old_inputs_o]; rfl
  obtain ⟨l, hl, h1, h2, _⟩ := value_link z.valid z.at'.live_o hk
  obtain ⟨kind, k1, k2, _⟩ := z.valid.kinds l hl
  rw [h1, h2, hk] at k2; cases k2
  have hs := decls_link z.tree z.valid hl k1 (by rw [h1]; exact z.decls_w hd)
  have := (z.valid.types l.src D (z.live_link hl).1 hs).2 _ (List.mem_of_getElem? k1)
  exact tuple_valid this

/-- What the block takes may be used where its control-flow graph is. -/
theorem ins_valid {D : List Types.Term} (hd : DeclsAt h G D) : ∀ kind ∈ ins.map Kind.value ++ [Kind.stateOrder], KindOk C D kind := by
  have hi : DeclsAt h i D := .inherited z.at'.upI (fun _ _ e => by rw [z.at'.opP] at e; cases e)
    (.inherited z.at'.upP (fun _ _ e => by rw [z.at'.op] at e; cases e) hd)
  have := (z.valid.types i D z.live_i hi).2
  rw [z.at'.opI] at this
  exact this

/-! ## Counts -/

theorem count (φ : Link → Bool) : g.links.countP φ =
    h.links.countP (fun l => φ (passOn G d (redirect o w row.length l)) && decide (l.src ≠ P)) +
    (List.range row.length).countP (fun k => φ ⟨w, k, o, k⟩) + (List.range (ins.length + 1)).countP (fun k => φ ⟨G, k, d, k⟩) := by
  rw [z.put.links.countP_eq, List.countP_append, List.countP_append, List.countP_map, List.countP_map, List.countP_map,
    List.countP_filter]
  rfl

theorem from_P {l : Link} (hl : l ∈ h.links) (hX : l.dst ≠ X) : l.src ≠ P := fun e => hX (by rw [z.at'.succ l hl e])

theorem v_inDegree {n port : Nat} {kind : Kind} (hn : g.live n = true)
    (hk : ((g.ops n).ports .incoming)[port]? = some kind) : InDegreeOk kind (linksTo g n port).length := by
  have hc := z.count fun l => decide (l.dst = n) && decide (l.dstPort = port)
  unfold linksTo
  rw [← List.countP_eq_length_filter]
  simp only [(moved_eq _).2.2.1, (moved_eq _).2.2.2] at hc
  have how := z.ne_w z.at'.live_o
  have hod := z.ne_d z.at'.live_o
  rcases z.live_cases hn with ⟨hn, hX⟩ | rfl | rfl
  · have hnw := z.ne_w hn
    have hnd := z.ne_d hn
    have e3 : (List.range (ins.length + 1)).countP (fun k => decide (d = n) && decide (k = port)) = 0 := by
      rw [List.countP_eq_zero]
      intro k _
      simp [Ne.symm hnd]
    by_cases ho : n = o
    · subst ho
      by_cases hlt : port < row.length
      · rw [z.input_first hlt] at hk; cases hk
        have e1 : h.links.countP (fun l => (decide ((redirect n w row.length l).dst = n) &&
            decide ((redirect n w row.length l).dstPort = port)) && decide (l.src ≠ P)) = 0 := by
          rw [List.countP_eq_zero]
          intro l hl hx
          simp only [Bool.and_eq_true, decide_eq_true_eq] at hx
          rcases redirect_dst (o := n) (w := w) (len := row.length) l with ⟨e', e⟩ | ⟨e', e0, e⟩ | ⟨e', j, ej, e⟩
          · rw [e] at hx; exact e' hx.1.1
          · rw [e] at hx; exact hnw hx.1.1.symm
          · rw [e] at hx
            have := hx.1.2
            simp only at this
            omega
        have e2 : (List.range row.length).countP (fun k => decide (n = n) && decide (k = port)) = 1 := by
          simp [range_count, hlt]
        rw [e1, e2, e3] at hc
        rw [hc]; exact rfl
      · obtain ⟨j, rfl⟩ : ∃ j, port = row.length + j := ⟨port - row.length, by omega⟩
        rw [z.input_rest] at hk
        have hd := z.valid.inDegree n (j + 1) kind z.at'.live_o hk
        unfold linksTo at hd
        rw [← List.countP_eq_length_filter] at hd
        have e1 : h.links.countP (fun l => (decide ((redirect n w row.length l).dst = n) &&
            decide ((redirect n w row.length l).dstPort = row.length + j)) && decide (l.src ≠ P)) =
            h.links.countP (fun l => decide (l.dst = n) && decide (l.dstPort = j + 1)) := by
          refine List.countP_congr fun l hl => ?_
          simp only [Bool.and_eq_true, decide_eq_true_eq]
          rcases redirect_dst (o := n) (w := w) (len := row.length) l with ⟨e', e⟩ | ⟨e', e0, e⟩ | ⟨e', j', ej, e⟩
          · rw [e]; simp [e']
          · rw [e]; simp [e', e0, Ne.symm hnw]
          · rw [e]
            simp [e', ej, z.from_P hl (by rw [e']; exact z.oX)]
        have e2 : (List.range row.length).countP (fun k => decide (n = n) && decide (k = row.length + j)) = 0 := by
          simp [range_count]
        rw [e1, e2, e3] at hc
        rw [hc]; exact hd
    · rw [z.in_ports hn hX ho] at hk
      have hd := z.valid.inDegree n port kind hn hk
      unfold linksTo at hd
      rw [← List.countP_eq_length_filter] at hd
      have e1 : h.links.countP (fun l => (decide ((redirect o w row.length l).dst = n) &&
          decide ((redirect o w row.length l).dstPort = port)) && decide (l.src ≠ P)) =
          h.links.countP (fun l => decide (l.dst = n) && decide (l.dstPort = port)) := by
        refine List.countP_congr fun l hl => ?_
        simp only [Bool.and_eq_true, decide_eq_true_eq]
        rcases redirect_dst (o := o) (w := w) (len := row.length) l with ⟨e', e⟩ | ⟨e', e0, e⟩ | ⟨e', j, ej, e⟩
        · rw [e]
          exact ⟨fun h => h.1, fun he => ⟨he, z.from_P hl (by rw [he.1]; exact hX)⟩⟩
        · rw [e]; simp [e', Ne.symm hnw, Ne.symm ho]
        · rw [e]; simp [e', Ne.symm ho]
      have e2 : (List.range row.length).countP (fun k => decide (o = n) && decide (k = port)) = 0 := by
        rw [List.countP_eq_zero]
        intro k _
        simp [Ne.symm ho]
      rw [e1, e2, e3] at hc
      rw [hc]; exact hd
  · have hlt : port < ins.length + 1 := by
      rw [z.inputs_d] at hk
      have := (List.getElem?_eq_some_iff.1 hk).1
      simpa using this
    have e1 : h.links.countP (fun l => (decide ((redirect o w row.length l).dst = n) &&
        decide ((redirect o w row.length l).dstPort = port)) && decide (l.src ≠ P)) = 0 := by
      rw [List.countP_eq_zero]
      intro l hl hx
      simp only [Bool.and_eq_true, decide_eq_true_eq] at hx
      rcases redirect_dst (o := o) (w := w) (len := row.length) l with ⟨e', e⟩ | ⟨e', e0, e⟩ | ⟨e', j, ej, e⟩
      · rw [e] at hx; exact z.ne_d (z.live_link hl).2 hx.1.1
      · rw [e] at hx; exact z.dw hx.1.1.symm
      · rw [e] at hx; exact hod hx.1.1
    have e2 : (List.range row.length).countP (fun k => decide (o = n) && decide (k = port)) = 0 := by
      rw [List.countP_eq_zero]
      intro k _
      simp [hod]
    have e3 : (List.range (ins.length + 1)).countP (fun k => decide (n = n) && decide (k = port)) = 1 := by
      simp only [decide_true, Bool.true_and, range_count, if_pos hlt]
    rw [e1, e2, e3] at hc
    rw [hc]
    cases kind <;> simp [InDegreeOk]
  · rw [z.inputs_w] at hk
    have e3 : ∀ port, (List.range (ins.length + 1)).countP (fun k => decide (d = n) && decide (k = port)) = 0 := by
      intro port
      rw [List.countP_eq_zero]
      intro k _
      simp [z.dw]
    rcases port with _ | _ | q
    · cases hk
      have hko : ((h.ops o).ports .incoming)[0]? = some (.value (sumOf [row])) := by rw [z.old_inputs_o]; rfl
      have hd := z.valid.inDegree o 0 _ z.at'.live_o hko
      unfold linksTo at hd
      rw [← List.countP_eq_length_filter] at hd
      have e1 : h.links.countP (fun l => (decide ((redirect o n row.length l).dst = n) &&
          decide ((redirect o n row.length l).dstPort = 0)) && decide (l.src ≠ P)) =
          h.links.countP (fun l => decide (l.dst = o) && decide (l.dstPort = 0)) := by
        refine List.countP_congr fun l hl => ?_
        simp only [Bool.and_eq_true, decide_eq_true_eq]
        rcases redirect_dst (o := o) (w := n) (len := row.length) l with ⟨e', e⟩ | ⟨e', e0, e⟩ | ⟨e', j, ej, e⟩
        · rw [e]; simp [e', z.ne_w (z.live_link hl).2]
        · rw [e]
          simp [e', e0, z.from_P hl (by rw [e']; exact z.oX)]
        · rw [e]; simp [ej, how]
      have e2 : (List.range row.length).countP (fun k => decide (o = n) && decide (k = 0)) = 0 := by
        rw [List.countP_eq_zero]
        intro k _
        simp [how]
      rw [e1, e2, e3] at hc
      rw [hc]; exact hd
    · cases hk; trivial
    · simp at hk

theorem v_outDegree {n port : Nat} {kind : Kind} (hn : g.live n = true)
    (hk : ((g.ops n).ports .outgoing)[port]? = some kind) : OutDegreeOk kind (linksFrom g n port).length := by
  have hc := z.count fun l => decide (l.src = n) && decide (l.srcPort = port)
  unfold linksFrom
  rw [← List.countP_eq_length_filter]
  simp only [(moved_eq _).1, (moved_eq _).2.1] at hc
  have hGw := z.ne_w z.at'.liveG
  have hGd := z.ne_d z.at'.liveG
  rcases z.live_cases hn with ⟨hn, hX⟩ | rfl | rfl
  · have hnw := z.ne_w hn
    have hnd := z.ne_d hn
    have e2 : (List.range row.length).countP (fun k => decide (w = n) && decide (k = port)) = 0 := by
      rw [List.countP_eq_zero]
      intro k _
      simp [Ne.symm hnw]
    by_cases hG : n = G
    · subst hG
      have hlt : port < ins.length + 1 := by
        rw [z.outputs_G] at hk
        have := (List.getElem?_eq_some_iff.1 hk).1
        simpa using this
      have e1 : h.links.countP (fun l => (decide ((if l.src = n then d else l.src) = n) && decide (l.srcPort = port)) &&
          decide (l.src ≠ P)) = 0 := by
        rw [List.countP_eq_zero]
        intro l hl hx
        simp only [Bool.and_eq_true, decide_eq_true_eq] at hx
        have := hx.1.1
        by_cases e : l.src = n
        · rw [if_pos e] at this; exact hnd this.symm
        · rw [if_neg e] at this; exact e this
      have e3 : (List.range (ins.length + 1)).countP (fun k => decide (n = n) && decide (k = port)) = 1 := by
        simp only [decide_true, Bool.true_and, range_count, if_pos hlt]
      rw [e1, e2, e3] at hc
      rw [hc]
      cases kind <;> simp [OutDegreeOk]
    by_cases hP : n = P
    · subst hP
      rw [z.op_P] at hk
      simp [Op.ports] at hk
    · rw [z.out_ports hn hX hG hP] at hk
      have hd := z.valid.outDegree n port kind hn hk
      unfold linksFrom at hd
      rw [← List.countP_eq_length_filter] at hd
      have e1 : h.links.countP (fun l => (decide ((if l.src = G then d else l.src) = n) && decide (l.srcPort = port)) &&
          decide (l.src ≠ P)) = h.links.countP (fun l => decide (l.src = n) && decide (l.srcPort = port)) := by
        refine List.countP_congr fun l hl => ?_
        simp only [Bool.and_eq_true, decide_eq_true_eq]
        by_cases e : l.src = G
        · rw [if_pos e, e]; simp [Ne.symm hnd, Ne.symm hG]
        · rw [if_neg e]
          exact ⟨fun h => h.1, fun h => ⟨h, by rw [h.1]; exact hP⟩⟩
      have e3 : (List.range (ins.length + 1)).countP (fun k => decide (G = n) && decide (k = port)) = 0 := by
        rw [List.countP_eq_zero]
        intro k _
        simp [Ne.symm hG]
      rw [e1, e2, e3] at hc
      rw [hc]; exact hd
  · rw [z.out_d] at hk
    have hd := z.valid.outDegree G port kind z.at'.liveG hk
    unfold linksFrom at hd
    rw [← List.countP_eq_length_filter] at hd
    have e1 : h.links.countP (fun l => (decide ((if l.src = G then n else l.src) = n) && decide (l.srcPort = port)) &&
        decide (l.src ≠ P)) = h.links.countP (fun l => decide (l.src = G) && decide (l.srcPort = port)) := by
      refine List.countP_congr fun l hl => ?_
      simp only [Bool.and_eq_true, decide_eq_true_eq]
      by_cases e : l.src = G
      · rw [if_pos e, e]; simp [Ne.symm z.at'.PG]
      · rw [if_neg e]; simp [e, z.ne_d (z.live_link hl).1]
    have e2 : (List.range row.length).countP (fun k => decide (w = n) && decide (k = port)) = 0 := by
      rw [List.countP_eq_zero]
      intro k _
      simp [Ne.symm z.dw]
    have e3 : (List.range (ins.length + 1)).countP (fun k => decide (G = n) && decide (k = port)) = 0 := by
      rw [List.countP_eq_zero]
      intro k _
      simp [hGd]
    rw [e1, e2, e3] at hc
    rw [hc]; exact hd
  · rw [z.outputs_w] at hk
    by_cases hlt : port < row.length
    · rw [List.getElem?_append_left (by simpa using hlt)] at hk
      simp only [List.getElem?_map, List.getElem?_eq_getElem hlt, Option.map_some, Option.some.injEq] at hk
      subst hk
      have e1 : h.links.countP (fun l => (decide ((if l.src = G then d else l.src) = n) && decide (l.srcPort = port)) &&
          decide (l.src ≠ P)) = 0 := by
        rw [List.countP_eq_zero]
        intro l hl hx
        simp only [Bool.and_eq_true, decide_eq_true_eq] at hx
        have := hx.1.1
        by_cases e : l.src = G
        · rw [if_pos e] at this; exact z.dw this
        · rw [if_neg e] at this; exact z.ne_w (z.live_link hl).1 this
      have e2 : (List.range row.length).countP (fun k => decide (n = n) && decide (k = port)) = 1 := by
        simp [range_count, hlt]
      have e3 : (List.range (ins.length + 1)).countP (fun k => decide (G = n) && decide (k = port)) = 0 := by
        rw [List.countP_eq_zero]
        intro k _
        simp [hGw]
      rw [e1, e2, e3] at hc
      exact .inr hc
    · rw [List.getElem?_append_right (by simpa using hlt)] at hk
      have := List.mem_of_getElem? hk
      rw [List.mem_singleton] at this
      subst this; trivial

theorem v_blocks {l : Link} (hl : l ∈ g.links) {q : Nat} {sg : Types.Signature} (hq : g.ops q = .cfg sg)
    (hs : l.src ∈ g.children q) (hd : l.dst ∈ g.children q) : BlockLinkOk g l := by
  have hql : g.live q = true := (z.treeG.parent_live _ _ ((z.treeG.child_iff _ _).1 hs)).2
  rcases z.live_cases hql with ⟨hql, hqX⟩ | rfl | rfl
  · have hP : q ≠ P := by rintro rfl; rw [z.op_P] at hq; cases hq
    have ho : q ≠ o := by rintro rfl; rw [z.op_o] at hq; cases hq
    by_cases hG : q = G
    · subst hG
      have he : RegionEdge g q l.src l.dst := ⟨hs, hd, l, hl, rfl, rfl⟩
      obtain ⟨m1, m2, _⟩ := z.region_G he
      have hoc : o ∉ h.children q := fun hc => by
        have := z.child_up hc
        rw [z.at'.upO] at this; exact hP (Option.some.inj this).symm
      have hGc : q ∉ h.children q := fun hc => z.tree.acyclic _ _ (z.child_up hc) (.refl _)
      rcases z.mem_links.1 hl with ⟨k, hk, k1, rfl⟩ | ⟨r, _, rfl⟩ | ⟨r, _, rfl⟩
      · obtain ⟨f1, f2, f3, _⟩ := moved_eq (G := q) (d := d) (o := o) (w := w) (len := row.length) k
        unfold BlockLinkOk
        rw [f1, f2, f3]
        rw [f2] at m1
        rw [f3] at m2
        by_cases e : k.src = q
        · rw [if_pos e] at m1; exact absurd m1 z.not_d
        rw [if_neg e] at m1 ⊢
        rcases redirect_dst (o := o) (w := w) (len := row.length) k with ⟨hdo, e'⟩ | ⟨_, _, e'⟩ | ⟨_, j, _, e'⟩
        · rw [e'] at m2 ⊢
          obtain ⟨l1, l2⟩ := z.live_link hk
          have hso : k.src ≠ o := fun e => hoc (e ▸ m1)
          obtain ⟨a1, a2, a3, a4, q1, q2, q3⟩ := z.valid.blocks k hk q sig z.at'.op m1 m2
          refine ⟨a1, a2, a3, a4, by rw [z.ops l1 (z.src_X hk) e k1 hso]; exact q1, q2, ?_⟩
          by_cases hdP : k.dst = P
          · right
            rw [hdP, z.at'.opP] at q3
            rw [hdP, z.op_P]
            rcases q3 with ⟨_, _, e⟩ | e
            · cases e; rfl
            · cases e
          · rw [z.ops l2 (z.dst_X hk k1) (fun e => hGc (e ▸ m2)) hdP hdo]; exact q3
        · rw [e'] at m2; exact absurd m2 z.not_w
        · rw [e'] at m2; exact absurd m2 hoc
      · exact absurd m1 z.not_w
      · exact absurd m1 hGc
    · have hq' := hq
      rw [z.ops hql hqX hG hP ho] at hq
      have hp : q ≠ p := by
        rintro rfl
        have hc := z.valid.contains G q z.at'.parent
        rw [z.at'.op, hq] at hc
        exact hc
      rw [z.kids hql hqX hG hP hp] at hs hd
      have hoc : o ∉ h.children q := fun hc => by
        have := z.child_up hc
        rw [z.at'.upO] at this; exact hP (Option.some.inj this).symm
      have hGc : G ∉ h.children q := fun hc => by
        have := z.child_up hc
        rw [z.at'.parent] at this; exact hp (Option.some.inj this).symm
      rcases z.mem_links.1 hl with ⟨k, hk, k1, rfl⟩ | ⟨r, _, rfl⟩ | ⟨r, _, rfl⟩
      · obtain ⟨f1, f2, f3, _⟩ := moved_eq (G := G) (d := d) (o := o) (w := w) (len := row.length) k
        unfold BlockLinkOk
        rw [f1, f2, f3]
        rw [f2] at hs
        rw [f3] at hd
        by_cases e : k.src = G
        · rw [if_pos e] at hs; exact absurd hs z.not_d
        rw [if_neg e] at hs ⊢
        rcases redirect_dst (o := o) (w := w) (len := row.length) k with ⟨hdo, e'⟩ | ⟨_, _, e'⟩ | ⟨_, j, _, e'⟩
        · rw [e'] at hd ⊢
          obtain ⟨a1, a2, a3, a4, q1, q2, q3⟩ := z.valid.blocks k hk q sg hq hs hd
          refine ⟨a1, a2, a3, a4, by rw [z.op_child hG hP hp hs]; exact q1, q2, ?_⟩
          rw [z.op_child hG hP hp hd]; exact q3
        · rw [e'] at hd; exact absurd hd z.not_w
        · rw [e'] at hd; exact absurd hd hoc
      · exact absurd hs z.not_w
      · exact absurd hs hGc
  · rw [z.op_d] at hq; cases hq
  · rw [z.op_w] at hq; cases hq

theorem v_exports {a : Nat} {name : String} {s : Types.PolyFunc} {b : Bool} (he : Exports C g a name s b) : Exports C h a name s b := by
  obtain ⟨h1, h2, h3⟩ := he
  rw [z.put.roots.1] at h1
  have no : ∀ {x : Nat} {y : Nat}, h.hier.parent x = some y → h.moduleRoot ≠ x := by
    intro x y hy e
    rw [← e, z.tree.root_top] at hy; cases hy
  have hrG := no z.at'.parent
  have hrP := no z.at'.upP
  have hrX := no z.at'.upX
  by_cases hp : h.moduleRoot = p
  · rw [hp, z.kids_p] at h1
    rcases List.mem_append.1 h1 with h1 | h1
    · rcases z.op_child_p h1 with e | e
      · rw [e] at h3
        exact ⟨by rw [hp]; exact h1, h2, h3⟩
      · rw [e, z.op_G] at h3
        rcases h3 with ⟨_, h3⟩ | ⟨_, h3⟩ <;> cases h3
    · rw [List.mem_singleton] at h1
      rw [h1, z.op_d] at h3
      rcases h3 with ⟨_, h3⟩ | ⟨_, h3⟩ <;> cases h3
  · rw [z.kids z.tree.root_live hrX hrG hrP hp] at h1
    rw [z.op_child hrG hrP hp h1] at h3
    exact ⟨h1, h2, h3⟩

theorem valid_g : Valid C g := by
  refine ⟨?_, ?_, fun n q hp => z.v_contains hp, fun n hn => z.v_children hn, ?_, fun l hl q sg hq hs hd => z.v_blocks hl hq hs hd,
    fun q hq hb n => z.v_acyclic hq hb n, ?_,
    fun n port kind hn hk => z.v_inDegree hn hk, fun n port kind hn hk => z.v_outDegree hn hk,
    fun l hl => z.v_kinds hl, ?_, ?_⟩
  · intro n hn
    rcases z.live_cases hn with ⟨hn, hX⟩ | rfl | rfl
    · by_cases hG : n = G
      · subst hG; rw [z.op_G]; rfl
      by_cases hP : n = P
      · subst hP; rw [z.op_P]; rfl
      by_cases ho : n = o
      · subst ho; rw [z.op_o]; rfl
      · rw [z.ops hn hX hG hP ho]; exact z.valid.tags n hn
    · rw [z.op_d]; rfl
    · rw [z.op_w]; rfl
  · intro n hn
    obtain ⟨q1, q2⟩ := z.put.ports n hn
    rcases z.live_cases hn with ⟨hn, hX⟩ | rfl | rfl
    · rw [if_neg (z.ne_w hn), if_neg (z.ne_d hn)] at q1 q2
      rw [q1, q2]
      constructor
      · by_cases ho : n = o
        · subst ho; rw [if_pos rfl, z.op_o]; simp [Op.ports]
        · rw [if_neg ho, z.in_ports hn hX ho]; exact (z.valid.ports n hn).1
      · by_cases hG : n = G
        · subst hG; rw [if_pos rfl, z.outputs_G]; simp
        by_cases hP : n = P
        · subst hP; rw [if_neg hG, if_pos rfl, z.op_P]; simp [Op.ports]
        · rw [if_neg hG, if_neg hP, z.out_ports hn hX hG hP]; exact (z.valid.ports n hn).2
    · rw [if_neg z.dw, if_pos rfl] at q1 q2
      rw [q1, q2, z.op_d]; simp [Op.ports]
    · rw [if_pos rfl] at q1 q2
      rw [q1, q2, z.inputs_w, z.outputs_w]; simp
  · rw [z.put.roots.2, z.at'.entry, z.op_G]; trivial
  · intro n t' hn ho
    rcases z.live_cases hn with ⟨hn, hX⟩ | rfl | rfl
    · have hG : n ≠ G := by rintro rfl; rw [z.op_G] at ho; cases ho
      have hP : n ≠ P := by rintro rfl; rw [z.op_P] at ho; cases ho
      have hno : n ≠ o := by rintro rfl; rw [z.op_o] at ho; cases ho
      rw [z.ops hn hX hG hP hno] at ho; exact z.valid.constants n t' hn ho
    · rw [z.op_d] at ho; cases ho
    · rw [z.op_w] at ho; cases ho
  · intro n D hn hd
    rcases z.live_cases hn with ⟨hn, hX⟩ | rfl | rfl
    · have hD := (z.decls hd).1 hn hX
      by_cases hG : n = G
      · subst hG
        rw [z.outputs_G, z.op_G]
        exact ⟨trivial, z.ins_valid hD⟩
      by_cases hP : n = P
      · subst hP
        rw [z.op_P]
        exact ⟨trivial, by simp [Op.ports]⟩
      have ht := z.valid.types n D hn hD
      rw [z.out_ports hn hX hG hP]
      refine ⟨?_, ht.2⟩
      by_cases ho : n = o
      · subst ho; rw [z.op_o]; trivial
      · rw [z.ops hn hX hG hP ho]; exact ht.1
    · have ht := z.valid.types G D z.at'.liveG ((z.decls hd).2 rfl)
      rw [z.out_d, z.op_d]
      exact ⟨trivial, ht.2⟩
    · have hv := z.row_valid hd
      rw [z.outputs_w, z.op_w]
      constructor
      · simp only [unpackOp, ArgsOk, z.known]
        constructor
        · rw [Types.validateTerms_iff]
          intro t ht
          rw [List.mem_singleton] at ht
          subst ht
          rw [Types.Term.validate, Types.validateTerms_iff]
          intro t ht
          obtain ⟨t, ht', rfl⟩ := List.mem_map.1 ht
          rw [Types.Term.validate]; exact hv t ht'
        · have key : ∀ r : List Types.Ty, Types.checkItems (r.map .runtime) (.runtimeType .linear) = true := by
            intro r
            induction r with
            | nil => rfl
            | cons t ts ih =>
              rw [List.map_cons, Types.checkItems, ih]
              cases hb : t.bound <;> simp [Types.checkTerm, Types.Bound.contains, hb]
          simp [Types.checkTerms, Types.checkTerm, key]
      · intro kind hk
        rcases List.mem_append.1 hk with hk | hk
        · obtain ⟨t, ht, rfl⟩ := List.mem_map.1 hk
          exact hv t ht
        · rw [List.mem_singleton] at hk
          subst hk; trivial
  · intro a b name siga sigb da db ha hb
    exact z.valid.exports a b name siga sigb da db (z.v_exports ha) (z.v_exports hb)

end MovesLast

end Verif.Patch
