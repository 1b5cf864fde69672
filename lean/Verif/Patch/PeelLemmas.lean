import Verif.Patch.PeelSpec
import Verif.Patch.CopyLemmas
import Verif.Graph.InsertLemmas
import Verif.Patch.InlineCallLemmas
import Verif.Builder.Lemmas
import Verif.Graph.Props

/-!
# Peeling a loop gives the specified Hugr
-/
namespace Verif.Patch

open Verif.Graph Verif.Ops Verif.Validate Verif.Passes

variable {Meta : Type} {C : Context} {h : Hugr Ops.Op Meta}

/-- `h` with a node `idx`, so that the children of `p` are `cs`. -/
def added (h : Hugr Ops.Op Meta) (idx p : Nat) (op : Ops.Op) (cs : List Nat) : Hugr Ops.Op Meta :=
  { h with
    cap := max h.cap (idx + 1)
    live := upd h.live idx true
    ins := upd h.ins idx (opsInfo.inputs op)
    outs := upd h.outs idx (opsInfo.outputs op)
    ops := upd h.ops idx op
    hier := { parent := upd h.hier.parent idx (some p), children := upd h.hier.children p cs } }

theorem above_live {a b : Nat} (ht : IsTree h) (ha : Above h.hier.parent a b) (hl : h.live a = true) : h.live b = true := by
  induction ha with
  | refl => exact hl
  | step hp _ ih => exact ih (ht.parent_live _ _ hp).2

theorem canAttach_new {idx p fuel : Nat} (ht : IsTree h) (hf : h.live idx = false) (hp : h.live p = true) :
    h.hier.canAttach fuel idx p = true := by
  unfold Hier.canAttach
  rw [(ht.dead hf).1]
  have : h.hier.onPath fuel p idx = false := by
    rw [Bool.eq_false_iff]
    intro ho
    have := above_live ht (onPath_above ho) hp
    rw [hf] at this; cases this
  rw [this]; rfl

theorem addNodeWithParent_eq {idx p : Nat} {op : Ops.Op} (ht : IsTree h) (hf : h.live idx = false) (hp : h.live p = true) :
    h.addNodeWithParent opsInfo.toOpInfo idx p op = some (added h idx p op (h.children p ++ [idx])) ∧
    IsTree (added h idx p op (h.children p ++ [idx])) := by
  have e : h.addNodeWithParent opsInfo.toOpInfo idx p op = some (added h idx p op (h.children p ++ [idx])) := by
    unfold Hugr.addNodeWithParent Hugr.addNode
    rw [hf]
    simp only [Bool.false_eq_true, if_false]
    unfold Hier.pushChild
    rw [if_pos (canAttach_new ht hf hp)]
    rfl
  exact ⟨e, addNodeWithParent_tree ht hp e⟩

theorem addNodeBefore_eq {idx p s : Nat} {op : Ops.Op} (ht : IsTree h) (hf : h.live idx = false) (hp : h.hier.parent s = some p) :
    h.addNodeBefore opsInfo.toOpInfo idx s op = some (added h idx p op (insertBeforeIn s idx (h.children p))) ∧
    IsTree (added h idx p op (insertBeforeIn s idx (h.children p))) := by
  have e : h.addNodeBefore opsInfo.toOpInfo idx s op = some (added h idx p op (insertBeforeIn s idx (h.children p))) := by
    unfold Hugr.addNodeBefore Hugr.addNode
    rw [hf]
    simp only [Bool.false_eq_true, if_false]
    unfold Hier.insertBefore
    rw [hp]
    simp only []
    rw [if_pos (canAttach_new ht hf (ht.parent_live _ _ hp).2)]
    rfl
  exact ⟨e, addNodeBefore_tree ht e⟩

theorem addNodeAfter_eq {idx p s : Nat} {op : Ops.Op} (ht : IsTree h) (hf : h.live idx = false) (hp : h.hier.parent s = some p) :
    h.addNodeAfter opsInfo.toOpInfo idx s op = some (added h idx p op (insertAfterIn s idx (h.children p))) ∧
    IsTree (added h idx p op (insertAfterIn s idx (h.children p))) := by
  have e : h.addNodeAfter opsInfo.toOpInfo idx s op = some (added h idx p op (insertAfterIn s idx (h.children p))) := by
    unfold Hugr.addNodeAfter Hugr.addNode
    rw [hf]
    simp only [Bool.false_eq_true, if_false]
    unfold Hier.insertAfter
    rw [hp]
    simp only []
    rw [if_pos (canAttach_new ht hf (ht.parent_live _ _ hp).2)]
    rfl
  exact ⟨e, addNodeAfter_tree ht e⟩

theorem erase_insertAfterIn {s n : Nat} {l : List Nat} (hn : n ∉ l) : (insertAfterIn s n l).erase n = l := by
  induction l with
  | nil => rfl
  | cons x xs ih =>
    simp only [List.mem_cons, not_or] at hn
    unfold insertAfterIn
    by_cases e : x = s
    · rw [if_pos e, List.erase_cons_tail (by simpa using fun e => hn.1 e.symm), List.erase_cons_head]
    · rw [if_neg e, List.erase_cons_tail (by simpa using fun e => hn.1 e.symm), ih hn.2]

/-- Changing operations, ports and links keeps the tree. -/
theorem tree_of_eq {g : Hugr Ops.Op Meta} (ht : IsTree h) (e1 : g.live = h.live) (e2 : g.hier = h.hier)
    (e3 : g.moduleRoot = h.moduleRoot) (e4 : g.entrypoint = h.entrypoint) (e5 : g.cap = h.cap) : IsTree g := by
  obtain ⟨a1, a2, a3, a4, a5, a6, a7, a8, a9⟩ := ht
  constructor
  · rw [e1, e3]; exact a1
  · rw [e1, e4]; exact a2
  · rw [e2, e3]; exact a3
  · rw [e1, e2, e3]; exact a4
  · rw [e1, e2]; exact a5
  · rw [e2]; exact a6
  · rw [e2]; exact a7
  · rw [e1, e2, e3]; exact a8
  · rw [e1, e5]; exact a9

/-- A case is added. -/
theorem addCase_eq {cond c i o : Nat} {ins outs : List Types.Ty} (ht : IsTree h) (hl : h.live cond = true)
    (hc : h.live c = false) (hi : h.live i = false) (ho : h.live o = false) (h1 : i ≠ c) (h2 : o ≠ c) (h3 : o ≠ i) :
    ∃ g, addCase h cond c i o ins outs = some g ∧ IsTree g ∧
      g.ops = upd (upd (upd h.ops c (.case ⟨ins, outs⟩)) i (.input ins)) o (.output outs) ∧
      g.live = upd (upd (upd h.live c true) i true) o true ∧
      g.ins = upd (upd (upd h.ins c (opsInfo.inputs (.case ⟨ins, outs⟩))) i (opsInfo.inputs (.input ins))) o
        (opsInfo.inputs (.output outs)) ∧
      g.outs = upd (upd (upd h.outs c (opsInfo.outputs (.case ⟨ins, outs⟩))) i (opsInfo.outputs (.input ins))) o
        (opsInfo.outputs (.output outs)) ∧
      g.hier.children = upd (upd h.hier.children cond (h.children cond ++ [c])) c [i, o] ∧
      g.links = h.links ∧ g.metadata = h.metadata ∧ g.moduleRoot = h.moduleRoot ∧ g.entrypoint = h.entrypoint := by
  have hcc : cond ≠ c := by rintro rfl; rw [hl] at hc; cases hc
  obtain ⟨e1, t1⟩ := addNodeWithParent_eq (op := .case ⟨ins, outs⟩) ht hc hl
  obtain ⟨e2, t2⟩ := addNodeWithParent_eq (op := .input ins) (idx := i) (p := c) t1
    (by simp only [added]; rw [upd_ne _ _ h1]; exact hi) (by simp only [added]; rw [upd_same])
  obtain ⟨e3, t3⟩ := addNodeWithParent_eq (op := .output outs) (idx := o) (p := c) t2
    (by simp only [added]; rw [upd_ne _ _ h3, upd_ne _ _ h2]; exact ho)
    (by simp only [added]; rw [upd_ne _ _ (Ne.symm h1), upd_same])
  refine ⟨_, ?_, t3, rfl, rfl, rfl, rfl, ?_, rfl, rfl, rfl, rfl⟩
  · unfold addCase
    rw [e1]; simp only []
    rw [e2]; simp only []
    rw [e3]
  · have d : h.hier.children c = [] := (ht.dead hc).2
    funext x
    simp only [added, Hugr.children, upd]
    by_cases e : x = c
    · subst e
      simp only [if_true, Ne.symm hcc, if_false, d, List.nil_append, List.cons_append]
    · simp only [e, if_false]

theorem getIo_eq {n a b : Nat} {cs : List Nat} (hop : OpTag.isSuperset .dataflowParent (h.ops n).opTag = true)
    (hc : h.children n = a :: b :: cs) : getIo h n = some (a, b) := by
  unfold getIo
  rw [if_pos hop, hc]


theorem mem_straight {s t k : Nat} {l : Link} : l ∈ straight s t k ↔ ∃ p, p < k ∧ l = ⟨s, p, t, p⟩ := by
  unfold straight
  simp only [List.mem_map, List.mem_range, eq_comm (a := l)]

/-- The conditional and the output are added. -/
theorem addConditional_eq {n i o : Nat} {cs : List Nat} {ji jo rest : List Types.Ty} {N : PeelNew} (ht : IsTree h)
    (hop : OpTag.isSuperset .dataflowParent (h.ops n).opTag = true) (hc : h.children n = i :: o :: cs)
    (hio : i ≠ o) (hf : h.live N.out = false)
    (hl : ∀ l ∈ h.links, (l.dst = o → l.dstPort < h.ins o) ∧ (l.src = o → l.srcPort < h.outs o)) :
    ∃ g, addConditional h n ji jo rest N = some (g, o) ∧ IsTree g ∧
      g.ops = upd (upd h.ops o (.conditional [ji, jo] rest (jo ++ rest))) N.out (.output (jo ++ rest)) ∧
      g.live = upd h.live N.out true ∧
      g.ins = upd h.ins N.out (opsInfo.inputs (.output (jo ++ rest))) ∧
      g.outs = upd (upd h.outs o (h.outs o + ((jo ++ rest).length + 1))) N.out (opsInfo.outputs (.output (jo ++ rest))) ∧
      g.hier.children = upd h.hier.children n (i :: N.out :: o :: cs) ∧
      g.links = h.links ++ straight o N.out (jo ++ rest).length ∧
      g.metadata = h.metadata ∧ g.moduleRoot = h.moduleRoot ∧ g.entrypoint = h.entrypoint := by
  have hpo : h.hier.parent o = some n := (ht.child_iff _ _).1 (by change o ∈ h.children n; rw [hc]; simp)
  have hlo := (ht.parent_live _ _ hpo).1
  have hoo : o ≠ N.out := by rintro rfl; rw [hlo] at hf; cases hf
  let h1 : Hugr Ops.Op Meta := { h with ops := upd h.ops o (.conditional [ji, jo] rest (jo ++ rest)) }
  have r1 : h.replaceOp o (.conditional [ji, jo] rest (jo ++ rest)) = some (h1, h.ops o) := by
    unfold Hugr.replaceOp; rw [if_pos hlo]
  have hnew : addSigned (h.outs o) (((jo ++ rest).length : Int) + 1) = h.outs o + ((jo ++ rest).length + 1) := by
    unfold addSigned; omega
  let h2 : Hugr Ops.Op Meta := { h1 with outs := upd h.outs o (h.outs o + ((jo ++ rest).length + 1)) }
  have r2 : h1.addPorts o .outgoing (((jo ++ rest).length : Int) + 1) = some (h2, (h.outs o, h.outs o + ((jo ++ rest).length + 1))) := by
    unfold Hugr.addPorts
    rw [if_pos (show h1.live o = true from hlo)]
    simp only []
    change some (h1.resizePorts o (h.ins o) (addSigned (h.outs o) _), (h.outs o, addSigned (h.outs o) _)) = _
    rw [hnew]
    congr 2
    unfold Hugr.resizePorts
    have e1 : upd h1.ins o (h.ins o) = h.ins := by
      funext x
      by_cases e : x = o <;> simp [upd, e, h1]
    have e2 : h1.links.filter (fun l => (l.dst != o || decide (l.dstPort < h.ins o)) &&
        (l.src != o || decide (l.srcPort < h.outs o + ((jo ++ rest).length + 1)))) = h.links := by
      refine List.filter_eq_self.2 fun l hm => ?_
      obtain ⟨a, b⟩ := hl l hm
      by_cases e : l.dst = o <;> by_cases e' : l.src = o
      · have := b e'; simp [e, e', a e]; omega
      · simp [e, e', a e]
      · have := b e'; simp [e, e']; omega
      · simp [e, e']
    rw [e1, e2]
  have t2 : IsTree h2 := tree_of_eq ht rfl rfl rfl rfl rfl
  obtain ⟨r3, t3⟩ := addNodeBefore_eq (h := h2) (op := .output (jo ++ rest)) t2 hf hpo
  have hins : insertBeforeIn o N.out (h2.children n) = i :: N.out :: o :: cs := by
    change insertBeforeIn o N.out (h.children n) = _
    rw [hc]
    simp only [insertBeforeIn, if_neg hio, if_true]
  rw [hins] at r3 t3
  have r4 := connectAll_ok (straight o N.out (jo ++ rest).length) (added h2 N.out n (.output (jo ++ rest)) (i :: N.out :: o :: cs)) (by
    intro l hm
    obtain ⟨p, hp, rfl⟩ := mem_straight.1 hm
    refine ⟨?_, ?_, ?_, ?_⟩
    · change upd h.live N.out true o = true
      rw [upd_ne _ _ hoo]; exact hlo
    · change p < upd (upd h.outs o _) N.out _ o
      rw [upd_ne _ _ hoo, upd_same]; omega
    · change upd h.live N.out true N.out = true
      rw [upd_same]
    · change p < upd h.ins N.out _ N.out
      rw [upd_same, Builder.inputs_eq rfl]
      simp [Op.ports]; rw [List.length_append] at hp; omega)
  refine ⟨{ added h2 N.out n (.output (jo ++ rest)) (i :: N.out :: o :: cs) with links := h.links ++ straight o N.out (jo ++ rest).length },
    ?_, tree_of_eq t3 rfl rfl rfl rfl rfl, rfl, rfl, rfl, rfl, rfl, rfl, rfl, rfl, rfl⟩
  unfold addConditional
  rw [getIo_eq hop hc]
  simp only [r1]
  simp only [r2, r3, r4]
  rfl

/-- The copy is moved, and the cases are wired. -/
theorem wireCases_eq {ji jo rest : List Types.Ty} {N : PeelNew} (ht : IsTree h) (hd : N.news.Nodup)
    (hlive : ∀ x ∈ N.news, h.live x = true)
    (o1 : h.ops N.again = .case ⟨ji ++ rest, jo ++ rest⟩) (o2 : h.ops N.stop = .case ⟨jo ++ rest, jo ++ rest⟩)
    (k1 : h.children N.again = [N.againIn, N.againOut]) (k2 : h.children N.stop = [N.stopIn, N.stopOut])
    (hcop : ¬ Above h.hier.parent N.again N.copy)
    (p1 : (ji ++ rest).length ≤ h.outs N.againIn) (p2 : (jo ++ rest).length ≤ h.ins N.againOut)
    (p3 : (jo ++ rest).length ≤ h.outs N.stopIn) (p4 : (jo ++ rest).length ≤ h.ins N.stopOut)
    (p5 : (ji ++ rest).length ≤ h.ins N.copy) (p6 : (jo ++ rest).length ≤ h.outs N.copy) :
    ∃ g, wireCases h ji jo rest N = some g ∧ IsTree g ∧ g.ops = h.ops ∧ g.live = h.live ∧ g.ins = h.ins ∧ g.outs = h.outs ∧
      (∀ x, g.children x = if x = N.again then [N.againIn, N.againOut, N.copy] else (h.children x).erase N.copy) ∧
      g.links.Perm (h.links ++ straight N.stopIn N.stopOut (jo ++ rest).length ++
        straight N.copy N.againOut (jo ++ rest).length ++ straight N.againIn N.copy (ji ++ rest).length) ∧
      g.metadata = h.metadata ∧ g.moduleRoot = h.moduleRoot ∧ g.entrypoint = h.entrypoint := by
  have l1 := hlive N.copy (by simp [PeelNew.news])
  have l2 := hlive N.again (by simp [PeelNew.news])
  have l3 := hlive N.againIn (by simp [PeelNew.news])
  have l4 := hlive N.againOut (by simp [PeelNew.news])
  have l5 := hlive N.stopIn (by simp [PeelNew.news])
  have l6 := hlive N.stopOut (by simp [PeelNew.news])
  obtain ⟨h1, r1⟩ := (C20_set_parent h ht N.copy N.again).1.2 ⟨l1, l2, hcop⟩
  obtain ⟨t1, m1⟩ := (C20_set_parent h ht N.copy N.again).2 h1 r1
  have e0 := m1.rest
  have q1 : h1.ops = h.ops := by rw [e0]
  have q2 : h1.live = h.live := by rw [e0]
  have q3 : h1.ins = h.ins := by rw [e0]
  have q4 : h1.outs = h.outs := by rw [e0]
  have q5 : h1.links = h.links := by rw [e0]
  have q6 : h1.metadata = h.metadata := by rw [e0]
  have q7 : h1.moduleRoot = h.moduleRoot := by rw [e0]
  have q8 : h1.entrypoint = h.entrypoint := by rw [e0]
  simp only [PeelNew.news, List.nodup_cons, List.mem_cons, List.not_mem_nil, or_false, not_or] at hd
  obtain ⟨⟨a1, a2, a3, a4, a5, a6, a7⟩, -, ⟨b1, b2, b3, b4, b5⟩, -⟩ := hd
  have c1 : h1.children N.again = [N.againIn, N.againOut, N.copy] := by
    change h1.hier.children N.again = _
    rw [m1.target]
    change (h.children N.again).filter _ ++ _ = _
    rw [k1]
    simp [Ne.symm a3, Ne.symm a4]
  have c2 : ∀ x, x ≠ N.again → h1.children x = (h.children x).erase N.copy := by
    intro x hx
    change h1.hier.children x = _
    rw [m1.others x hx]
    change _ = (h.hier.children x).erase N.copy
    rw [(ht.child_once x).erase_eq_filter]
    apply List.filter_congr
    intro y _
    by_cases hy : y = N.copy <;> simp [hy]
  have c3 : h1.children N.stop = [N.stopIn, N.stopOut] := by
    rw [c2 _ (fun e => b3 e.symm), k2, List.erase_of_not_mem]
    simp [a6, a7]
  have g1 : getIo h1 N.again = some (N.againIn, N.againOut) := getIo_eq (by rw [q1, o1]; rfl) c1
  have g2 : getIo h1 N.stop = some (N.stopIn, N.stopOut) := getIo_eq (by rw [q1, o2]; rfl) c3
  have hcon : connectAll h1 ((List.range (jo ++ rest).length).flatMap fun p =>
      [⟨N.stopIn, p, N.stopOut, p⟩, ⟨N.copy, p, N.againOut, p⟩]) = some { h1 with
        links := h1.links ++ (List.range (jo ++ rest).length).flatMap fun p =>
      [⟨N.stopIn, p, N.stopOut, p⟩, ⟨N.copy, p, N.againOut, p⟩] } := by
    apply connectAll_ok
    intro l hm
    simp only [List.mem_flatMap, List.mem_range, List.mem_cons, List.not_mem_nil, or_false] at hm
    obtain ⟨p, hp, rfl | rfl⟩ := hm
    · exact ⟨by rw [q2]; exact l5, by simp only []; rw [q4]; omega, by rw [q2]; exact l6, by simp only []; rw [q3]; omega⟩
    · exact ⟨by rw [q2]; exact l1, by simp only []; rw [q4]; omega, by rw [q2]; exact l4, by simp only []; rw [q3]; omega⟩
  have hcon2 := connectAll_ok (straight N.againIn N.copy (ji ++ rest).length) { h1 with
        links := h1.links ++ (List.range (jo ++ rest).length).flatMap fun p =>
      [⟨N.stopIn, p, N.stopOut, p⟩, ⟨N.copy, p, N.againOut, p⟩] } (by
    intro l hm
    obtain ⟨p, hp, rfl⟩ := mem_straight.1 hm
    exact ⟨by simp only []; rw [q2]; exact l3, by simp only []; rw [q4]; omega, by simp only []; rw [q2]; exact l1, by simp only []; rw [q3]; omega⟩)
  refine ⟨{ h1 with links := (h1.links ++ (List.range (jo ++ rest).length).flatMap fun p =>
      [⟨N.stopIn, p, N.stopOut, p⟩, ⟨N.copy, p, N.againOut, p⟩]) ++ straight N.againIn N.copy (ji ++ rest).length },
    ?_, tree_of_eq t1 rfl rfl rfl rfl rfl, q1, q2, q3, q4, ?_, ?_, q6, q7, q8⟩
  · unfold wireCases
    rw [r1]
    simp only [g1, g2, hcon]
    exact hcon2
  · intro x
    change h1.children x = _
    by_cases e : x = N.again
    · rw [if_pos e, e, c1]
    · rw [if_neg e, c2 x e]
  · simp only [q5]
    refine List.Perm.append_right _ ?_
    rw [List.append_assoc]
    refine List.Perm.append_left _ ?_
    unfold straight
    generalize List.range (jo ++ rest).length = ps
    induction ps with
    | nil => exact .nil
    | cons p ps ih =>
      simp only [List.flatMap_cons, List.map_cons, List.cons_append, List.nil_append]
      refine .cons _ ?_
      exact (List.Perm.cons _ ih).trans List.perm_middle.symm


/-- Change the values at some places. -/
def assign {α : Type} (f : Nat → α) (l : List (Nat × α)) : Nat → α := l.foldl (fun f e => upd f e.1 e.2) f

theorem assign_not {α : Type} {f : Nat → α} {l : List (Nat × α)} {x : Nat} (hx : x ∉ l.map Prod.fst) : assign f l x = f x := by
  unfold assign
  induction l generalizing f with
  | nil => rfl
  | cons e l ih =>
    simp only [List.map_cons, List.mem_cons, not_or] at hx
    rw [List.foldl_cons, ih hx.2, upd_ne _ _ hx.1]

theorem assign_mem {α : Type} {f : Nat → α} {l : List (Nat × α)} (hd : (l.map Prod.fst).Nodup) {x : Nat} {v : α}
    (hx : (x, v) ∈ l) : assign f l x = v := by
  induction l generalizing f with
  | nil => cases hx
  | cons e l ih =>
    simp only [List.map_cons, List.nodup_cons] at hd
    rcases List.mem_cons.1 hx with rfl | hx
    · change assign (upd f x v) l x = v
      rw [assign_not hd.1, upd_same]
    · exact ih hd.2 hx

/-- What is inside a node, if the children of such nodes are such nodes. -/
theorem inside_closed {g : Hugr Ops.Op Meta} (ht : IsTree g) {S : Nat → Prop} {q x : Nat} (hq : ∀ c ∈ g.children q, S c)
    (hS : ∀ p, S p → ∀ c ∈ g.children p, S c) (hi : Inside g q x) : S x := by
  have key : ∀ y, Above g.hier.parent y q → ∀ x, g.hier.parent x = some y → S x := by
    intro y hy
    clear hi
    induction hy with
    | refl => exact fun x hx => hq x ((ht.child_iff _ _).2 hx)
    | step hw _ ih => exact fun x hx => hS _ (ih hq _ hw) x ((ht.child_iff _ _).2 hx)
  obtain ⟨p, hp, ha⟩ := hi
  exact key p ha x hp

theorem nodup_length {α : Type} {l k : List α} (hl : l.Nodup) (hk : k.Nodup) (h : ∀ x, x ∈ l ↔ x ∈ k) : l.length = k.length :=
  ((List.perm_ext_iff_of_nodup hl hk).2 h).length_eq

theorem drop_nodup {n : Nat} (ht : IsTree h) (hn : h.live n = true) : ((h.descendants n).drop 1).Nodup :=
  (descendants_enumerates ht hn).nodup.sublist (List.drop_sublist _ _)

theorem mem_drop_descendants {e x : Nat} (ht : IsTree h) (he : h.live e = true) :
    x ∈ (h.descendants e).drop 1 ↔ Inside h e x := by
  have hen := descendants_enumerates ht he
  rw [inside_iff ht]
  have hd : h.descendants e = e :: (h.descendants e).drop 1 := by
    have := hen.head
    cases hds : h.descendants e with
    | nil => rw [hds] at this; cases this
    | cons a b => rw [hds] at this; cases this; rfl
  rw [← hen.mem x]
  have hnd := hen.nodup
  constructor
  · intro hx
    refine ⟨by rw [hd]; exact List.mem_cons_of_mem _ hx, ?_⟩
    rintro rfl
    rw [hd] at hnd
    exact (List.nodup_cons.1 hnd).1 hx
  · rintro ⟨h1, h2⟩
    rw [hd] at h1
    rcases List.mem_cons.1 h1 with rfl | h1
    · exact absurd rfl h2
    · exact h1

/-- The body of the loop. -/
theorem loop_children (hv : Valid C h) {n : Nat} {ji jo rest : List Types.Ty} (hn : h.live n = true)
    (hop : h.ops n = .tailLoop ji jo rest) : ∃ i o cs, h.children n = i :: o :: cs ∧ h.ops i = .input (ji ++ rest) ∧
      h.ops o = .output (sumOf [ji, jo] :: rest) ∧ ∀ c ∈ cs, ¬ IsIO (h.ops c) := by
  have := hv.children n hn
  unfold ChildrenOk at this
  rw [hop] at this
  exact this

/-- The Hugr with the copy of the loop next to it. -/
theorem copyLoop_eq (ht : IsTree h) {n r : Nat} {ji jo rest : List Types.Ty} {N : PeelNew} {copies : List Nat}
    (hr : h.hier.parent n = some r) (hnew : PeelVacant h n N copies) :
    ∃ g nodes μ, copyLoop h n ji jo rest N copies = some g ∧ IsTree g ∧ (∀ a ∈ nodes, μ a ∈ copies) ∧
      (∀ a, a ∈ nodes ↔ Inside h n a) ∧
      Copied some (added { h with ops := upd h.ops n (.dfg ⟨ji ++ rest, jo ++ rest⟩) } N.copy r (.tailLoop ji jo rest)
        (insertAfterIn n N.copy (h.children r))) n N.copy nodes μ g := by
  have hn := (ht.parent_live _ _ hr).1
  have hcm : N.copy ∈ N.news ++ copies := by simp [PeelNew.news]
  have hcd : h.live N.copy = false := hnew.free _ hcm
  let h1 : Hugr Ops.Op Meta := { h with ops := upd h.ops n (.dfg ⟨ji ++ rest, jo ++ rest⟩) }
  have t1 : IsTree h1 := tree_of_eq ht rfl rfl rfl rfl rfl
  have r1 : h.replaceOp n (.dfg ⟨ji ++ rest, jo ++ rest⟩) = some (h1, h.ops n) := by
    unfold Hugr.replaceOp; rw [if_pos hn]
  obtain ⟨r2, t2⟩ := addNodeAfter_eq (h := h1) (op := .tailLoop ji jo rest) t1 hcd hr
  let h2 := added h1 N.copy r (.tailLoop ji jo rest) (insertAfterIn n N.copy (h1.children r))
  have t2 : IsTree h2 := t2
  have hpar : ∀ x, h2.hier.parent x = if x = N.copy then some r else h.hier.parent x := fun x => rfl
  have hab : ∀ {p q}, Above h2.hier.parent p q → h.live p = true → Above h.hier.parent p q := by
    intro p q ha
    induction ha with
    | refl => exact fun _ => .refl _
    | @step x y w hp _ ih =>
      intro hx
      have hne : x ≠ N.copy := by rintro rfl; rw [hcd] at hx; cases hx
      rw [hpar, if_neg hne] at hp
      exact .step hp (ih (ht.parent_live _ _ hp).2)
  have hout : ¬ Inside h2 n N.copy := by
    rintro ⟨q, hq, ha⟩
    rw [hpar, if_pos rfl] at hq; cases hq
    exact ht.acyclic _ _ hr (hab ha (ht.parent_live _ _ hr).2)
  have hins : ∀ a, Inside h2 n a ↔ Inside h n a := by
    intro a
    constructor
    · rintro ⟨q, hq, ha⟩
      by_cases e : a = N.copy
      · subst e; exact absurd ⟨q, hq, ha⟩ hout
      · rw [hpar, if_neg e] at hq
        exact ⟨q, hq, hab ha (ht.parent_live _ _ hq).2⟩
    · rintro ⟨q, hq, ha⟩
      have hle : ∀ x y, h.hier.parent x = some y → h2.hier.parent x = some y := by
        intro x y hxy
        have hne : x ≠ N.copy := by
          rintro rfl
          rw [(ht.dead hcd).1] at hxy; cases hxy
        rw [hpar, if_neg hne, hxy]
      exact ⟨q, hle _ _ hq, Above.mono hle ha⟩
  have hl2 : ∀ x, x ≠ N.copy → h2.live x = h.live x := fun x hx => upd_ne _ _ hx
  have hnc : n ≠ N.copy := by rintro rfl; rw [hcd] at hn; cases hn
  have hcnd := hnew.nodup
  rw [List.nodup_append] at hcnd
  have hlen : ((h2.descendants n).drop 1).length = copies.length := by
    rw [← hnew.enough]
    have hn2 : h2.live n = true := by rw [hl2 n hnc]; exact hn
    refine nodup_length (drop_nodup t2 hn2) (drop_nodup ht hn) fun x => ?_
    rw [mem_drop_descendants t2 hn2, mem_drop_descendants ht hn, hins]
  obtain ⟨g, hg, tg, hco⟩ := copyDescendants_copied (sub := some) (root := n) (np := N.copy) (news := copies) t2
    (by rw [hl2 n hnc]; exact hn) (upd_same _ _ _) hout hcnd.2.1
    (fun x hx => by
      rw [hl2]
      · exact hnew.free x (List.mem_append_right _ hx)
      · rintro rfl
        exact hcnd.2.2 N.copy (by simp [PeelNew.news]) N.copy hx rfl)
    hlen (fun _ _ => rfl)
  refine ⟨g, _, _, ?_, tg, ?_, fun a => (hco.mem a).trans (hins a), hco⟩
  · unfold copyLoop
    rw [r1]
    simp only [r2]
    exact hg
  · intro a ha
    exact (List.of_mem_zip (copy_mem hlen ha)).2

/-- Peeling gives the specified Hugr. -/
theorem peelSteps_eq (ht : IsTree h) (hv : Valid C h) {n r : Nat} {ji jo rest : List Types.Ty} {N : PeelNew} {copies : List Nat}
    (hr : h.hier.parent n = some r) (hop : h.ops n = .tailLoop ji jo rest) (hnew : PeelVacant h n N copies) :
    ∃ g i o nodes μ, peelSteps h n ji jo rest N copies = some g ∧ IsTree g ∧ (∀ a ∈ nodes, μ a ∈ copies) ∧
      LoopPeeled h ⟨N, n, i, o⟩ ji jo rest nodes μ g := by
  have hn := (ht.parent_live _ _ hr).1
  obtain ⟨i, o, cs, hch, hopi, hopo, hopc⟩ := loop_children hv hn hop
  obtain ⟨g3, nodes, μ, s1, t3, hμ, hmem, hco⟩ := copyLoop_eq (ji := ji) (jo := jo) (rest := rest) ht hr hnew
  have hnd := hnew.nodup
  rw [List.nodup_append] at hnd
  obtain ⟨nd1, nd2, nd3⟩ := hnd
  have free : ∀ x ∈ N.news, h.live x = false := fun x hx => hnew.free x (List.mem_append_left _ hx)
  have freeμ : ∀ a ∈ nodes, h.live (μ a) = false := fun a ha => hnew.free _ (List.mem_append_right _ (hμ a ha))
  have newμ : ∀ a ∈ nodes, μ a ∉ N.news := fun a ha hx => nd3 _ hx _ (hμ a ha) rfl
  have ne_new : ∀ {x y}, h.live x = true → y ∈ N.news → x ≠ y := by
    rintro x y hx hy rfl; rw [free x hy] at hx; cases hx
  have ne_μ : ∀ {x}, h.live x = true → ∀ a ∈ nodes, x ≠ μ a := by
    rintro x hx a ha rfl; rw [freeμ a ha] at hx; cases hx
  have new_μ : ∀ {x}, x ∈ N.news → ∀ a ∈ nodes, x ≠ μ a := fun hx a ha e => newμ a ha (e ▸ hx)
  have hkid : ∀ c ∈ h.children n, h.hier.parent c = some n := fun c hc => (ht.child_iff _ _).1 hc
  have hok : o ∈ h.children n := by rw [hch]; simp
  have hik : i ∈ h.children n := by rw [hch]; simp
  have hlo := (ht.parent_live _ _ (hkid o hok)).1
  have hli := (ht.parent_live _ _ (hkid i hik)).1
  have hlr := (ht.parent_live _ _ hr).2
  have hon : o ∈ nodes := (hmem o).2 (.child (hkid o hok))
  have hrn : r ≠ n := by rintro rfl; exact ht.acyclic _ _ hr (.refl _)
  have hno : n ≠ o := by rintro rfl; exact inside_irrefl ht n ((hmem n).1 hon)
  have hio : i ≠ o := by
    rintro rfl; rw [hopi] at hopo; cases hopo
  have hkidso : h.children o = [] := by
    have := hv.children o hlo
    unfold ChildrenOk at this
    rw [hopo] at this
    exact this
  have hro : r ≠ o := by
    rintro rfl
    have : n ∈ h.children r := (ht.child_iff _ _).2 hr
    rw [hkidso] at this; cases this
  have c1 : N.copy ∈ N.news := by simp [PeelNew.news]
  have c2 : N.out ∈ N.news := by simp [PeelNew.news]
  have c3 : N.again ∈ N.news := by simp [PeelNew.news]
  have c4 : N.againIn ∈ N.news := by simp [PeelNew.news]
  have c5 : N.againOut ∈ N.news := by simp [PeelNew.news]
  have c6 : N.stop ∈ N.news := by simp [PeelNew.news]
  have c7 : N.stopIn ∈ N.news := by simp [PeelNew.news]
  have c8 : N.stopOut ∈ N.news := by simp [PeelNew.news]
  have nd := nd1
  simp only [PeelNew.news, List.nodup_cons, List.mem_cons, List.not_mem_nil, or_false, not_or] at nd
  obtain ⟨⟨d12, d13, d14, d15, d16, d17, d18⟩, ⟨d23, d24, d25, d26, d27, d28⟩, ⟨d34, d35, d36, d37, d38⟩,
    ⟨d45, d46, d47, d48⟩, ⟨d56, d57, d58⟩, ⟨d67, d68⟩, d78, -⟩ := nd
  -- the Hugr with the copy
  have g3live : ∀ x, (∀ a ∈ nodes, x ≠ μ a) → x ≠ N.copy → g3.live x = h.live x := by
    intro x hx hc
    have := hco.live x
    have e : (added { h with ops := upd h.ops n (.dfg ⟨ji ++ rest, jo ++ rest⟩) } N.copy r (.tailLoop ji jo rest)
        (insertAfterIn n N.copy (h.children r))).live x = h.live x := upd_ne _ _ hc
    rw [e] at this
    rw [Bool.eq_iff_iff, this]
    exact ⟨fun h => h.elim id fun ⟨a, ha, e⟩ => absurd e (hx a ha), .inl⟩
  have g3copy : g3.live N.copy = true := (hco.live _).2 (.inl (upd_same _ _ _))
  have g3μ : ∀ a ∈ nodes, g3.live (μ a) = true := fun a ha => (hco.live _).2 (.inr ⟨a, ha, rfl⟩)
  have g3new : ∀ x ∈ N.news, x ≠ N.copy → g3.live x = false := fun x hx hc => by rw [g3live x (new_μ hx) hc, free x hx]
  have g3ops : ∀ x, (∀ a ∈ nodes, x ≠ μ a) → x ≠ N.copy → x ≠ n → g3.ops x = h.ops x := by
    intro x hx hc hxn
    rw [(hco.old x hx).1]
    change upd (upd h.ops n _) N.copy _ x = _
    rw [upd_ne _ _ hc, upd_ne _ _ hxn]
  have g3n : g3.ops n = .dfg ⟨ji ++ rest, jo ++ rest⟩ := by
    rw [(hco.old n (ne_μ hn)).1]
    change upd (upd h.ops n _) N.copy _ n = _
    rw [upd_ne _ _ (ne_new hn c1), upd_same]
  have g3c : g3.ops N.copy = .tailLoop ji jo rest := by
    rw [(hco.old N.copy (new_μ c1)).1]
    exact upd_same _ _ _
  have g3ins : ∀ x, (∀ a ∈ nodes, x ≠ μ a) → x ≠ N.copy → g3.ins x = h.ins x ∧ g3.outs x = h.outs x := by
    intro x hx hc
    rw [(hco.old x hx).2.1, (hco.old x hx).2.2.1]
    exact ⟨upd_ne _ _ hc, upd_ne _ _ hc⟩
  have g3cp : g3.ins N.copy = opsInfo.inputs (.tailLoop ji jo rest) ∧ g3.outs N.copy = opsInfo.outputs (.tailLoop ji jo rest) := by
    rw [(hco.old N.copy (new_μ c1)).2.1, (hco.old N.copy (new_μ c1)).2.2.1]
    exact ⟨upd_same _ _ _, upd_same _ _ _⟩
  have g3kids : ∀ x, (∀ a ∈ nodes, x ≠ μ a) → x ≠ N.copy → x ≠ r → g3.children x = h.children x := by
    intro x hx hc hxr
    rw [(hco.old x hx).2.2.2.2.2 hc]
    exact upd_ne _ _ hxr
  have g3r : g3.children r = insertAfterIn n N.copy (h.children r) := by
    rw [(hco.old r (ne_μ hlr)).2.2.2.2.2 (ne_new hlr c1)]
    exact upd_same _ _ _
  have h2kids : ∀ x, x ≠ r → (added { h with ops := upd h.ops n (.dfg ⟨ji ++ rest, jo ++ rest⟩) } N.copy r (.tailLoop ji jo rest)
        (insertAfterIn n N.copy (h.children r))).children x = h.children x := fun x hx => upd_ne _ _ hx
  have r_out : r ∉ nodes := by
    intro hm
    obtain ⟨q, hq, ha⟩ := (hmem r).1 hm
    exact ht.acyclic _ _ hr (.step hq ha)
  have g3kc : g3.children N.copy = (h.children n).map μ := by
    rw [hco.inside, h2kids _ (ne_new hlr c1).symm, h2kids _ hrn.symm]
    change h.hier.children N.copy ++ _ = _
    rw [(ht.dead (free _ c1)).2]; rfl
  have g3links : g3.links = h.links ++ (h.links.filter fun l => decide (l.src ∈ nodes) || decide (l.dst ∈ nodes)).map (renameLink μ) := hco.links
  -- the conditional
  obtain ⟨g4, s4, t4, e4o, e4l, e4i, e4u, e4c, e4k, e4m, e4r, e4e⟩ :=
    addConditional_eq (h := g3) (n := n) (i := i) (o := o) (cs := cs) (ji := ji) (jo := jo) (rest := rest) (N := N) t3
      (by rw [g3n]; rfl) (by rw [g3kids n (ne_μ hn) (ne_new hn c1) hrn.symm, hch]) hio (g3new _ c2 (Ne.symm d12)) (by
        intro l hl
        rw [(g3ins o (ne_μ hlo) (ne_new hlo c1)).1, (g3ins o (ne_μ hlo) (ne_new hlo c1)).2]
        rw [g3links, List.mem_append] at hl
        rcases hl with hl | hl
        · obtain ⟨⟨_, h1⟩, _, h2⟩ := live_of_link ht hv hl
          exact ⟨fun e => e ▸ h2, fun e => e ▸ h1⟩
        · simp only [List.mem_map, List.mem_filter] at hl
          obtain ⟨k, ⟨hk, _⟩, rfl⟩ := hl
          have key : ∀ x, μ x = o → False := by
            intro x hx
            by_cases hm : x ∈ nodes
            · exact ne_μ hlo x hm hx.symm
            · rw [hco.keep x hm] at hx; rw [hx] at hm; exact hm hon
          exact ⟨fun e => (key _ e).elim, fun e => (key _ e).elim⟩)
  have l4 : ∀ x, x ≠ N.out → g4.live x = g3.live x := fun x hx => by rw [e4l, upd_ne _ _ hx]
  -- the cases
  obtain ⟨g5, s5, t5, e5o, e5l, e5i, e5u, e5c, e5k, e5m, e5r, e5e⟩ :=
    addCase_eq (h := g4) (cond := o) (c := N.again) (i := N.againIn) (o := N.againOut) (ins := ji ++ rest) (outs := jo ++ rest) t4
      (by rw [l4 _ (ne_new hlo c2), g3live _ (ne_μ hlo) (ne_new hlo c1)]; exact hlo)
      (by rw [l4 _ (Ne.symm d23)]; exact g3new _ c3 (Ne.symm d13))
      (by rw [l4 _ (Ne.symm d24)]; exact g3new _ c4 (Ne.symm d14))
      (by rw [l4 _ (Ne.symm d25)]; exact g3new _ c5 (Ne.symm d15))
      (Ne.symm d34) (Ne.symm d35) (Ne.symm d45)
  have l5 : ∀ x, x ≠ N.out → x ≠ N.again → x ≠ N.againIn → x ≠ N.againOut → g5.live x = g3.live x := fun x h1 h2 h3 h4 => by
    rw [e5l, upd_ne _ _ h4, upd_ne _ _ h3, upd_ne _ _ h2, l4 x h1]
  obtain ⟨g6, s6, t6, e6o, e6l, e6i, e6u, e6c, e6k, e6m, e6r, e6e⟩ :=
    addCase_eq (h := g5) (cond := o) (c := N.stop) (i := N.stopIn) (o := N.stopOut) (ins := jo ++ rest) (outs := jo ++ rest) t5
      (by rw [l5 _ (ne_new hlo c2) (ne_new hlo c3) (ne_new hlo c4) (ne_new hlo c5), g3live _ (ne_μ hlo) (ne_new hlo c1)]; exact hlo)
      (by rw [l5 _ (Ne.symm d26) (Ne.symm d36) (Ne.symm d46) (Ne.symm d56)]; exact g3new _ c6 (Ne.symm d16))
      (by rw [l5 _ (Ne.symm d27) (Ne.symm d37) (Ne.symm d47) (Ne.symm d57)]; exact g3new _ c7 (Ne.symm d17))
      (by rw [l5 _ (Ne.symm d28) (Ne.symm d38) (Ne.symm d48) (Ne.symm d58)]; exact g3new _ c8 (Ne.symm d18))
      (Ne.symm d67) (Ne.symm d68) (Ne.symm d78)
  -- the tables
  have tail : [N.out, N.again, N.againIn, N.againOut, N.stop, N.stopIn, N.stopOut].Nodup := (List.nodup_cons.1 nd1).2
  have otail : (o :: [N.out, N.again, N.againIn, N.againOut, N.stop, N.stopIn, N.stopOut]).Nodup := by
    refine List.nodup_cons.2 ⟨fun hm => ?_, tail⟩
    exact ne_new hlo (List.mem_cons_of_mem _ hm) rfl
  have Tops : g6.ops = assign g3.ops [(o, .conditional [ji, jo] rest (jo ++ rest)), (N.out, .output (jo ++ rest)),
      (N.again, .case ⟨ji ++ rest, jo ++ rest⟩), (N.againIn, .input (ji ++ rest)), (N.againOut, .output (jo ++ rest)),
      (N.stop, .case ⟨jo ++ rest, jo ++ rest⟩), (N.stopIn, .input (jo ++ rest)), (N.stopOut, .output (jo ++ rest))] := by
    rw [e6o, e5o, e4o]; rfl
  have Tlive : g6.live = assign g3.live [(N.out, true), (N.again, true), (N.againIn, true), (N.againOut, true),
      (N.stop, true), (N.stopIn, true), (N.stopOut, true)] := by
    rw [e6l, e5l, e4l]; rfl
  have Tins : g6.ins = assign g3.ins [(N.out, opsInfo.inputs (.output (jo ++ rest))),
      (N.again, opsInfo.inputs (.case ⟨ji ++ rest, jo ++ rest⟩)), (N.againIn, opsInfo.inputs (.input (ji ++ rest))),
      (N.againOut, opsInfo.inputs (.output (jo ++ rest))), (N.stop, opsInfo.inputs (.case ⟨jo ++ rest, jo ++ rest⟩)),
      (N.stopIn, opsInfo.inputs (.input (jo ++ rest))), (N.stopOut, opsInfo.inputs (.output (jo ++ rest)))] := by
    rw [e6i, e5i, e4i]; rfl
  have Touts : g6.outs = assign g3.outs [(o, g3.outs o + ((jo ++ rest).length + 1)), (N.out, opsInfo.outputs (.output (jo ++ rest))),
      (N.again, opsInfo.outputs (.case ⟨ji ++ rest, jo ++ rest⟩)), (N.againIn, opsInfo.outputs (.input (ji ++ rest))),
      (N.againOut, opsInfo.outputs (.output (jo ++ rest))), (N.stop, opsInfo.outputs (.case ⟨jo ++ rest, jo ++ rest⟩)),
      (N.stopIn, opsInfo.outputs (.input (jo ++ rest))), (N.stopOut, opsInfo.outputs (.output (jo ++ rest)))] := by
    rw [e6u, e5u, e4u]; rfl
  have tail_new : ∀ {x}, x ∉ N.news → x ∉ [N.out, N.again, N.againIn, N.againOut, N.stop, N.stopIn, N.stopOut] :=
    fun hx hm => hx (List.mem_cons_of_mem _ hm)
  have g3o : g3.children o = [] := by rw [g3kids o (ne_μ hlo) (ne_new hlo c1) hro.symm, hkidso]
  have k6 : ∀ x, x ≠ n → x ≠ o → x ≠ N.again → x ≠ N.stop → g6.children x = g3.children x := by
    intro x h1 h2 h3 h4
    change g6.hier.children x = g3.hier.children x
    rw [e6c, upd_ne _ _ h4, upd_ne _ _ h2, e5c, upd_ne _ _ h3, upd_ne _ _ h2, e4c, upd_ne _ _ h1]
  have k6n : g6.children n = i :: N.out :: o :: cs := by
    change g6.hier.children n = _
    rw [e6c, upd_ne _ _ (ne_new hn c6), upd_ne _ _ hno, e5c, upd_ne _ _ (ne_new hn c3), upd_ne _ _ hno, e4c, upd_same]
  have k5o : g5.children o = [N.again] := by
    change g5.hier.children o = _
    rw [e5c, upd_ne _ _ (ne_new hlo c3), upd_same]
    change g4.hier.children o ++ _ = _
    rw [e4c, upd_ne _ _ hno.symm]
    change g3.children o ++ _ = _
    rw [g3o]; rfl
  have k6o : g6.children o = [N.again, N.stop] := by
    change g6.hier.children o = _
    rw [e6c, upd_ne _ _ (ne_new hlo c6), upd_same, k5o]; rfl
  have k6a : g6.children N.again = [N.againIn, N.againOut] := by
    change g6.hier.children N.again = _
    rw [e6c, upd_ne _ _ d36, upd_ne _ _ (ne_new hlo c3).symm, e5c, upd_same]
  have k6s : g6.children N.stop = [N.stopIn, N.stopOut] := by
    change g6.hier.children N.stop = _
    rw [e6c, upd_same]
  have hcm : ∀ c ∈ h.children n, c ∈ nodes := fun c hc => (hmem c).2 (.child (hkid c hc))
  have hcm' : ∀ a ∈ nodes, ∀ c ∈ h.children a, c ∈ nodes := by
    intro a ha c hc
    obtain ⟨q, hq, hqn⟩ := (hmem a).1 ha
    exact (hmem c).2 ⟨a, (ht.child_iff _ _).1 hc, .step hq hqn⟩
  have k6μ : ∀ a ∈ nodes, g6.children (μ a) = (h.children a).map μ := by
    intro a ha
    rw [k6 _ (ne_μ hn a ha).symm (ne_μ hlo a ha).symm (new_μ c3 a ha).symm (new_μ c6 a ha).symm, (hco.new a ha).2.2.2.2,
      h2kids _ (fun e => r_out (e ▸ ha))]
  have k6c : g6.children N.copy = (h.children n).map μ := by
    rw [k6 _ (ne_new hn c1).symm (ne_new hlo c1).symm d13 d16, g3kc]
  -- the wires
  have hcop : ¬ Above g6.hier.parent N.again N.copy := by
    intro ha
    have hi : Inside g6 N.copy N.again := (inside_iff t6).2 ⟨ha, Ne.symm d13⟩
    obtain ⟨b, hb, e⟩ := inside_closed (S := fun x => ∃ b ∈ nodes, x = μ b) t6
      (by
        intro c hc
        rw [k6c] at hc
        obtain ⟨b, hb, rfl⟩ := List.mem_map.1 hc
        exact ⟨b, hcm b hb, rfl⟩)
      (by
        rintro p ⟨b, hb, rfl⟩ c hc
        rw [k6μ b hb] at hc
        obtain ⟨b', hb', rfl⟩ := List.mem_map.1 hc
        exact ⟨b', hcm' b hb b' hb', rfl⟩) hi
    exact new_μ c3 b hb e
  have i6 : ∀ x v, (x, v) ∈ [(N.out, opsInfo.inputs (.output (jo ++ rest))),
      (N.again, opsInfo.inputs (.case ⟨ji ++ rest, jo ++ rest⟩)), (N.againIn, opsInfo.inputs (.input (ji ++ rest))),
      (N.againOut, opsInfo.inputs (.output (jo ++ rest))), (N.stop, opsInfo.inputs (.case ⟨jo ++ rest, jo ++ rest⟩)),
      (N.stopIn, opsInfo.inputs (.input (jo ++ rest))), (N.stopOut, opsInfo.inputs (.output (jo ++ rest)))] → g6.ins x = v :=
    fun x v hx => by rw [Tins]; exact assign_mem (by exact tail) hx
  have u6 : ∀ x v, (x, v) ∈ [(o, g3.outs o + ((jo ++ rest).length + 1)), (N.out, opsInfo.outputs (.output (jo ++ rest))),
      (N.again, opsInfo.outputs (.case ⟨ji ++ rest, jo ++ rest⟩)), (N.againIn, opsInfo.outputs (.input (ji ++ rest))),
      (N.againOut, opsInfo.outputs (.output (jo ++ rest))), (N.stop, opsInfo.outputs (.case ⟨jo ++ rest, jo ++ rest⟩)),
      (N.stopIn, opsInfo.outputs (.input (jo ++ rest))), (N.stopOut, opsInfo.outputs (.output (jo ++ rest)))] → g6.outs x = v :=
    fun x v hx => by rw [Touts]; exact assign_mem (by exact otail) hx
  have o6 : ∀ x v, (x, v) ∈ [(o, Op.conditional [ji, jo] rest (jo ++ rest)), (N.out, .output (jo ++ rest)),
      (N.again, .case ⟨ji ++ rest, jo ++ rest⟩), (N.againIn, .input (ji ++ rest)), (N.againOut, .output (jo ++ rest)),
      (N.stop, .case ⟨jo ++ rest, jo ++ rest⟩), (N.stopIn, .input (jo ++ rest)), (N.stopOut, .output (jo ++ rest))] → g6.ops x = v :=
    fun x v hx => by rw [Tops]; exact assign_mem (by exact otail) hx
  have copy_tail : N.copy ∉ [N.out, N.again, N.againIn, N.againOut, N.stop, N.stopIn, N.stopOut] := (List.nodup_cons.1 nd1).1
  have copy_otail : N.copy ∉ o :: [N.out, N.again, N.againIn, N.againOut, N.stop, N.stopIn, N.stopOut] := by
    intro hm
    rcases List.mem_cons.1 hm with e | hm
    · exact ne_new hlo c1 e.symm
    · exact copy_tail hm
  have i6c : g6.ins N.copy = opsInfo.inputs (.tailLoop ji jo rest) := by
    rw [Tins, assign_not copy_tail, g3cp.1]
  have u6c : g6.outs N.copy = opsInfo.outputs (.tailLoop ji jo rest) := by
    rw [Touts, assign_not copy_otail, g3cp.2]
  have o6c : g6.ops N.copy = .tailLoop ji jo rest := by
    rw [Tops, assign_not copy_otail, g3c]
  have lens : ∀ ts : List Types.Ty, opsInfo.inputs (.output ts) = ts.length + 1 ∧ opsInfo.outputs (.input ts) = ts.length + 1 := by
    intro ts
    rw [Builder.inputs_eq rfl, Builder.outputs_eq rfl]
    simp [Op.ports]
  have lenl : opsInfo.inputs (.tailLoop ji jo rest) = (ji ++ rest).length + 1 ∧
      opsInfo.outputs (.tailLoop ji jo rest) = (jo ++ rest).length + 1 := by
    rw [Builder.inputs_eq rfl, Builder.outputs_eq rfl]
    simp [Op.ports]
    omega
  have live6 : ∀ x ∈ N.news, g6.live x = true := by
    intro x hx
    rw [Tlive]
    by_cases e : x = N.copy
    · subst e; rw [assign_not copy_tail]; exact g3copy
    · refine assign_mem (by exact tail) ?_
      simp only [PeelNew.news, List.mem_cons, List.not_mem_nil, or_false] at hx
      rcases hx with rfl | rfl | rfl | rfl | rfl | rfl | rfl | rfl
      · exact absurd rfl e
      all_goals simp
  obtain ⟨g, s7, t7, e7o, e7l, e7i, e7u, e7c, e7k, e7m, e7r, e7e⟩ :=
    wireCases_eq (h := g6) (ji := ji) (jo := jo) (rest := rest) (N := N) t6 nd1 live6
      (o6 _ _ (by simp)) (o6 _ _ (by simp)) k6a k6s hcop
      (by rw [u6 N.againIn (opsInfo.outputs (.input (ji ++ rest))) (by simp), (lens _).2]; omega)
      (by rw [i6 N.againOut (opsInfo.inputs (.output (jo ++ rest))) (by simp), (lens _).1]; omega)
      (by rw [u6 N.stopIn (opsInfo.outputs (.input (jo ++ rest))) (by simp), (lens _).2]; omega)
      (by rw [i6 N.stopOut (opsInfo.inputs (.output (jo ++ rest))) (by simp), (lens _).1]; omega)
      (by rw [i6c, lenl.1]; omega) (by rw [u6c, lenl.2]; omega)
  have keep : ∀ x, x ≠ N.again → N.copy ∉ g6.children x → g.children x = g6.children x := by
    intro x hx hc
    rw [e7c, if_neg hx, List.erase_of_not_mem hc]
  have copy_dead : ∀ x, N.copy ∉ h.children x := by
    intro x hx
    have := (ht.parent_live _ _ ((ht.child_iff _ _).1 hx)).1
    rw [free _ c1] at this; cases this
  have copy_map : ∀ xs : List Nat, (∀ x ∈ xs, x ∈ nodes) → N.copy ∉ xs.map μ := by
    intro xs hxs hm
    obtain ⟨b, hb, e⟩ := List.mem_map.1 hm
    exact new_μ c1 b (hxs b hb) e.symm
  refine ⟨g, i, o, nodes, μ, ?_, t7, hμ, ?_⟩
  · unfold peelSteps
    simp only [s1, s4, s5, s6, s7]
  constructor
  · exact hmem
  · exact hco.keep
  · exact hco.inj
  · exact fun a ha => ⟨freeμ a ha, newμ a ha⟩
  · exact free
  · exact nd1
  · -- live
    intro x
    rw [e7l]
    by_cases hx : x ∈ N.news
    · exact ⟨fun _ => .inr (.inl hx), fun _ => live6 x hx⟩
    · rw [Tlive, assign_not (tail_new hx), hco.live x]
      have e : (added { h with ops := upd h.ops n (.dfg ⟨ji ++ rest, jo ++ rest⟩) } N.copy r (.tailLoop ji jo rest)
        (insertAfterIn n N.copy (h.children r))).live x = h.live x := upd_ne _ _ (fun e => hx (e ▸ c1))
      rw [e]
      constructor
      · rintro (h1 | h1)
        · exact .inl h1
        · exact .inr (.inr h1)
      · rintro (h1 | h1 | h1)
        · exact .inl h1
        · exact absurd h1 hx
        · exact .inr h1
  · -- opN
    change g.ops n = _
    rw [e7o, Tops, assign_not, g3n]
    intro hm
    rcases List.mem_cons.1 hm with e | hm
    · exact hno e
    · exact ne_new hn (List.mem_cons_of_mem _ hm) rfl
  · change g.ops o = _
    rw [e7o]; exact o6 _ _ (by simp)
  · change g.ops N.out = _
    rw [e7o]; exact o6 _ _ (by simp)
  · rw [e7o]; exact ⟨o6 _ _ (by simp), o6 _ _ (by simp), o6 _ _ (by simp), o6c⟩
  · rw [e7o]; exact ⟨o6 _ _ (by simp), o6 _ _ (by simp), o6 _ _ (by simp)⟩
  · refine ⟨cs, hch, ?_⟩
    change g.children n = _
    rw [keep n (ne_new hn c3), k6n]
    · rw [k6n]
      intro hm
      simp only [List.mem_cons] at hm
      rcases hm with e | e | e | e
      · exact ne_new hli c1 e.symm
      · exact d12 e
      · exact ne_new hlo c1 e.symm
      · exact copy_dead n (by rw [hch]; simp [e])
  · change g.children o = _
    rw [keep o (ne_new hlo c3), k6o]
    rw [k6o]; simp [d13, d16]
  · change g.children N.again = _
    rw [e7c, if_pos rfl]
  · change g.children N.stop = _
    rw [keep _ (Ne.symm d36), k6s]
    rw [k6s]; simp [d17, d18]
  · -- io
    have hz : ∀ x ∈ N.news, x ≠ N.copy → x ≠ N.again → x ≠ N.stop → g.children x = [] := by
      intro x hx h1 h2 h3
      have e : g6.children x = [] := by
        rw [k6 x (ne_new hn hx).symm (ne_new hlo hx).symm h2 h3, g3kids x (new_μ hx) h1 (ne_new hlr hx).symm]
        exact (ht.dead (free x hx)).2
      rw [keep x h2, e]
      rw [e]; simp
    exact ⟨hz _ c2 (Ne.symm d12) d23 d26, hz _ c4 (Ne.symm d14) (Ne.symm d34) d46, hz _ c5 (Ne.symm d15) (Ne.symm d35) d56,
      hz _ c7 (Ne.symm d17) (Ne.symm d37) (Ne.symm d67), hz _ c8 (Ne.symm d18) (Ne.symm d38) (Ne.symm d68)⟩
  · change g.children N.copy = _
    rw [keep _ d13, k6c]
    rw [k6c]; exact copy_map _ hcm
  · -- ports
    intro x hx
    change x ∈ N.news at hx
    rw [e7i, e7u, e7o]
    simp only [PeelNew.news, List.mem_cons, List.not_mem_nil, or_false] at hx
    rcases hx with rfl | rfl | rfl | rfl | rfl | rfl | rfl | rfl
    · rw [i6c, u6c, o6c, Builder.inputs_eq rfl, Builder.outputs_eq rfl]; exact ⟨rfl, rfl⟩
    · rw [i6 N.out _ (.head _), u6 N.out _ (.tail _ (.head _)), o6 N.out _ (.tail _ (.head _)), Builder.inputs_eq rfl, Builder.outputs_eq rfl]
      exact ⟨rfl, rfl⟩
    · rw [i6 N.again _ (.tail _ (.head _)), u6 N.again _ (.tail _ (.tail _ (.head _))), o6 N.again _ (.tail _ (.tail _ (.head _))),
        Builder.inputs_eq rfl, Builder.outputs_eq rfl]
      exact ⟨rfl, rfl⟩
    · rw [i6 N.againIn _ (.tail _ (.tail _ (.head _))), u6 N.againIn _ (.tail _ (.tail _ (.tail _ (.head _)))),
        o6 N.againIn _ (.tail _ (.tail _ (.tail _ (.head _)))), Builder.inputs_eq rfl, Builder.outputs_eq rfl]
      exact ⟨rfl, rfl⟩
    · rw [i6 N.againOut _ (.tail _ (.tail _ (.tail _ (.head _)))), u6 N.againOut _ (.tail _ (.tail _ (.tail _ (.tail _ (.head _))))),
        o6 N.againOut _ (.tail _ (.tail _ (.tail _ (.tail _ (.head _))))), Builder.inputs_eq rfl, Builder.outputs_eq rfl]
      exact ⟨rfl, rfl⟩
    · rw [i6 N.stop _ (.tail _ (.tail _ (.tail _ (.tail _ (.head _))))), u6 N.stop _ (.tail _ (.tail _ (.tail _ (.tail _ (.tail _ (.head _)))))),
        o6 N.stop _ (.tail _ (.tail _ (.tail _ (.tail _ (.tail _ (.head _)))))), Builder.inputs_eq rfl, Builder.outputs_eq rfl]
      exact ⟨rfl, rfl⟩
    · rw [i6 N.stopIn _ (.tail _ (.tail _ (.tail _ (.tail _ (.tail _ (.head _)))))),
        u6 N.stopIn _ (.tail _ (.tail _ (.tail _ (.tail _ (.tail _ (.tail _ (.head _))))))),
        o6 N.stopIn _ (.tail _ (.tail _ (.tail _ (.tail _ (.tail _ (.tail _ (.head _))))))), Builder.inputs_eq rfl, Builder.outputs_eq rfl]
      exact ⟨rfl, rfl⟩
    · rw [i6 N.stopOut _ (.tail _ (.tail _ (.tail _ (.tail _ (.tail _ (.tail _ (.head _))))))),
        u6 N.stopOut _ (.tail _ (.tail _ (.tail _ (.tail _ (.tail _ (.tail _ (.tail _ (.head _)))))))),
        o6 N.stopOut _ (.tail _ (.tail _ (.tail _ (.tail _ (.tail _ (.tail _ (.tail _ (.head _)))))))),
        Builder.inputs_eq rfl, Builder.outputs_eq rfl]
      exact ⟨rfl, rfl⟩
  · change g.outs o = h.outs o + _
    rw [e7u, u6 o _ (.head _), (g3ins o (ne_μ hlo) (ne_new hlo c1)).2]
  · -- old
    intro x hx hxn
    change x ∉ N.news at hxn
    have hxc : x ≠ N.copy := fun e => hxn (e ▸ c1)
    refine ⟨?_, ?_, fun ho => ?_, fun h1 h2 => ⟨?_, ?_⟩⟩
    · rw [e7i, Tins, assign_not (tail_new hxn), (g3ins x hx hxc).1]
    · rw [e7m, e6m, e5m, e4m, (hco.old x hx).2.2.2.1]; rfl
    · change x ≠ o at ho
      rw [e7u, Touts, assign_not, (g3ins x hx hxc).2]
      intro hm
      rcases List.mem_cons.1 hm with e | hm
      · exact ho e
      · exact tail_new hxn hm
    · change x ≠ n at h1
      change x ≠ o at h2
      rw [e7o, Tops, assign_not, g3ops x hx hxc h1]
      intro hm
      rcases List.mem_cons.1 hm with e | hm
      · exact h2 e
      · exact tail_new hxn hm
    · change x ≠ n at h1
      change x ≠ o at h2
      rw [e7c, if_neg (fun e : x = N.again => hxn (e ▸ c3)), k6 x h1 h2 (fun e => hxn (e ▸ c3)) (fun e => hxn (e ▸ c6))]
      by_cases e : x = r
      · rw [e, g3r, erase_insertAfterIn (copy_dead r)]
      · rw [g3kids x hx hxc e, List.erase_of_not_mem (copy_dead x)]
  · -- new
    intro a ha
    have hna : μ a ∉ o :: [N.out, N.again, N.againIn, N.againOut, N.stop, N.stopIn, N.stopOut] := by
      intro hm
      rcases List.mem_cons.1 hm with e | hm
      · exact ne_μ hlo a ha e.symm
      · exact newμ a ha (List.mem_cons_of_mem _ hm)
    have hac : a ≠ N.copy := by
      rintro rfl
      obtain ⟨q, hq, _⟩ := (hmem _).1 ha
      rw [(ht.dead (free _ c1)).1] at hq; cases hq
    have han : a ≠ n := by rintro rfl; exact inside_irrefl ht a ((hmem a).1 ha)
    obtain ⟨w1, w2, w3, w4, w5⟩ := hco.new a ha
    refine ⟨?_, ?_, ?_, ?_, ?_⟩
    · rw [e7o, Tops, assign_not hna]
      have := (Option.some.inj w1).symm
      rw [this]
      change upd (upd h.ops n _) N.copy _ a = _
      rw [upd_ne _ _ hac, upd_ne _ _ han]
    · rw [e7i, Tins, assign_not (fun hm => hna (List.mem_cons_of_mem _ hm)), w2]
      exact upd_ne _ _ hac
    · rw [e7u, Touts, assign_not hna, w3]
      exact upd_ne _ _ hac
    · rw [e7m, e6m, e5m, e4m, w4]; rfl
    · rw [keep _ (new_μ c3 a ha).symm, k6μ a ha]
      rw [k6μ a ha]; exact copy_map _ (hcm' a ha)
  · -- links
    rw [e6k, e5k, e4k, g3links] at e7k
    exact e7k
  · rw [e7r, e6r, e5r, e4r, hco.moduleRoot]; rfl
  · rw [e7e, e6e, e5e, e4e, hco.entrypoint]; rfl

end Verif.Patch
