import Verif.Passes.ForceOrderLemmas
import Verif.Passes.DeadCodeProps
import Verif.Graph.SerializeOps
import Mathlib.Tactic.FinCases
import Mathlib.Algebra.Order.Ring.Int

/-!
# C37: forcing an order
-/
namespace Verif.Passes

open Verif.Graph

variable {Meta K : Type} [LinearOrder K]

theorem otherPort_out (op : Ops.Op) (ho : op.otherOutput = some .stateOrder)
    (hs : op.dataflowSignature ≠ .panic) :
    ∃ p, op.otherPort .outgoing = .ok (some p) ∧ p < runGet 0 (op.portCount .outgoing) ∧
      op.portKind .outgoing p = .ok (some .stateOrder) := by
  cases op <;> simp only [Ops.Op.otherOutput, reduceCtorEq, Option.some.injEq] at ho <;>
    (try exact ⟨_, rfl, by
      simp [Ops.Op.portCount, Ops.Op.valuePortCount, Ops.Op.dataflowSignature, Ops.Run.map, runGet,
        Ops.Op.nonDfPortCount, Ops.Op.otherPortKind, Ops.Op.otherOutput, Ops.Op.staticPortKind,
        Ops.Op.staticOutput],
      by simp [Ops.Op.portKind, Ops.Op.dataflowSignature, Ops.Op.otherPortKind, Ops.Op.otherOutput,
        Ops.Op.staticPortKind, Ops.Op.staticOutput]⟩)
  case tag k vs =>
    cases hv : vs[k]? with
    | none => simp [Ops.Op.dataflowSignature, hv] at hs
    | some row =>
      refine ⟨1, ?_, ?_, ?_⟩ <;>
        simp [Ops.Op.otherPort, Ops.Op.portCount, Ops.Op.valuePortCount, Ops.Op.dataflowSignature,
          Ops.Run.map, runGet, hv, Ops.sigRow, Ops.Op.portKind,
          Ops.Op.nonDfPortCount, Ops.Op.otherPortKind, Ops.Op.otherOutput, Ops.Op.staticPortKind,
          Ops.Op.staticOutput]

theorem otherPort_in (op : Ops.Op) (ho : op.otherInput = some .stateOrder)
    (hs : op.dataflowSignature ≠ .panic) :
    ∃ p, op.otherPort .incoming = .ok (some p) ∧ p < runGet 0 (op.portCount .incoming) ∧
      op.portKind .incoming p = .ok (some .stateOrder) := by
  have htag : op.tagOk = true := by
    cases htg : op.tagOk with
    | true => rfl
    | false =>
      cases op <;> simp [Ops.Op.tagOk] at htg
      rename_i k vs
      exact absurd (by simp [Ops.Op.dataflowSignature, List.getElem?_eq_none htg]) hs
  have hkind : op.otherPortKind .incoming = some .stateOrder := ho
  have hn : op.nonDfPortCount .incoming = 1 := by
    cases op <;> simp [Ops.Op.otherInput] at ho <;> rfl
  obtain ⟨s, h1, h2, _⟩ := Ops.ports_eq op .incoming htag
  have hp := Ops.C10_port_count op .incoming htag
  have ho' := Ops.C10_other_port op .incoming htag
  cases hf : (op.ports .incoming).findIdx? Ops.Kind.isOther with
  | none =>
    rw [List.findIdx?_eq_none_iff] at hf
    have : Ops.Kind.stateOrder ∈ op.ports .incoming := by
      rw [h2, hn, hkind]; simp
    have := hf _ this
    simp [Ops.Kind.isOther] at this
  | some p =>
    rw [hf] at ho'
    obtain ⟨hlt, hk, _⟩ := List.findIdx?_eq_some_iff_getElem.1 hf
    refine ⟨p, ho', by rw [hp]; exact hlt, ?_⟩
    rw [Ops.C10_port_kind op .incoming htag p hlt, List.getElem?_eq_getElem hlt]
    congr 2
    have hmem : (op.ports .incoming)[p] ∈ op.ports .incoming := List.getElem_mem hlt
    generalize (op.ports .incoming)[p] = k at hk hmem
    rw [h2, hn, hkind] at hmem
    simp only [List.replicate_one, Option.getD_some, List.mem_append, List.mem_map,
      List.mem_singleton, Option.mem_toList] at hmem
    rcases hmem with (⟨t, _, rfl⟩ | hm) | rfl
    · simp [Ops.Kind.isOther] at hk
    · have := Ops.static_isStatic op .incoming k hm
      revert this hk; cases k <;> simp [Ops.Kind.isStatic, Ops.Kind.isOther]
    · rfl

theorem consecutive_cons {a b x y : Nat} {l : List Nat} (hc : Consecutive (x :: y :: l) a b) :
    (a = x ∧ b = y) ∨ Consecutive (y :: l) a b := by
  obtain ⟨xs, ys, heq⟩ := hc
  cases xs with
  | nil =>
    simp only [List.nil_append, List.cons.injEq] at heq
    exact Or.inl ⟨heq.1.symm, heq.2.1.symm⟩
  | cons z xs =>
    simp only [List.cons_append, List.cons.injEq] at heq
    exact Or.inr ⟨xs, ys, heq.2⟩

theorem Consecutive.cons {a b : Nat} {l : List Nat} (x : Nat) (hc : Consecutive l a b) :
    Consecutive (x :: l) a b := by
  obtain ⟨xs, ys, heq⟩ := hc
  exact ⟨x :: xs, ys, by rw [heq]; rfl⟩

/-- The edges added for one list of nodes. -/
theorem orderEdges_spec (xs : List Nat) (h : Hugr Ops.Op Meta)
    (hpm : PortsMatch opsInfo.toOpInfo h) (htag : TagsOk h)
    (hlive : ∀ x ∈ xs, h.live x = true)
    (hout : ∀ a b, Consecutive xs a b → (h.ops a).otherOutput = some .stateOrder)
    (hin : ∀ a b, Consecutive xs a b → (h.ops b).otherInput = some .stateOrder) :
    ∃ new, orderEdges h xs = some { h with links := h.links ++ new } ∧
      new.length ≤ xs.length - 1 ∧
      (∀ l ∈ new, Consecutive xs l.src l.dst ∧ OrderLink h l ∧ l.srcPort < h.outs l.src ∧
        l.dstPort < h.ins l.dst) ∧
      ∀ a b, Consecutive xs a b → ∃ l ∈ h.links ++ new, l.src = a ∧ l.dst = b := by
  induction xs generalizing h with
  | nil =>
    refine ⟨[], by simp [orderEdges], by simp, by simp, ?_⟩
    rintro a b ⟨xs, ys, heq⟩; simp at heq
  | cons x xs ih =>
    cases xs with
    | nil =>
      refine ⟨[], by simp [orderEdges], by simp, by simp, ?_⟩
      rintro a b ⟨xs, ys, heq⟩
      have := congrArg List.length heq
      simp at this
      omega
    | cons y xs =>
      have hxy : Consecutive (x :: y :: xs) x y := ⟨[], xs, rfl⟩
      have hstep : ∃ new1 : List Link, orderEdge h x y = some { h with links := h.links ++ new1 } ∧
          new1.length ≤ 1 ∧ (∀ l ∈ new1, l.src = x ∧ l.dst = y ∧ OrderLink h l ∧
            l.srcPort < h.outs l.src ∧ l.dstPort < h.ins l.dst) ∧
          ∃ l ∈ h.links ++ new1, l.src = x ∧ l.dst = y := by
        unfold orderEdge
        split
        · rename_i hm
          simp only [List.mem_map, List.mem_filter, beq_iff_eq] at hm
          obtain ⟨l, ⟨h1, h2⟩, h3⟩ := hm
          exact ⟨[], by simp, by simp, by simp, l, by simpa using h1, h2, h3⟩
        · have hlx := hlive x (by simp)
          have hly := hlive y (by simp)
          obtain ⟨p1, h1, h2, h3⟩ := otherPort_out _ (hout x y hxy) (htag x hlx)
          obtain ⟨p2, h4, h5, h6⟩ := otherPort_in _ (hin x y hxy) (htag y hly)
          have h7 : p1 < h.outs x := by rw [(hpm x hlx).2]; exact h2
          have h8 : p2 < h.ins y := by rw [(hpm y hly).1]; exact h5
          rw [h1, h4]
          simp only
          refine ⟨[⟨x, p1, y, p2⟩], ?_, by simp, ?_, ⟨x, p1, y, p2⟩, by simp, rfl, rfl⟩
          · unfold Hugr.connect
            rw [if_pos (by simp [hlx, hly, h7, h8])]
          · intro l hl
            simp only [List.mem_singleton] at hl
            subst hl
            exact ⟨rfl, rfl, ⟨h3, h6⟩, h7, h8⟩
      obtain ⟨new1, h1, h2, h3, h4⟩ := hstep
      obtain ⟨new2, h5, h6, h7, h8⟩ := ih { h with links := h.links ++ new1 } hpm htag
        (fun z hz => hlive z (List.mem_cons_of_mem _ hz))
        (fun a b hc => hout a b (hc.cons x)) (fun a b hc => hin a b (hc.cons x))
      refine ⟨new1 ++ new2, ?_, ?_, ?_, ?_⟩
      · unfold orderEdges
        rw [h1]
        simp only
        rw [h5]
        simp only [List.append_assoc]
      · simp only [List.length_append, List.length_cons] at h6 ⊢
        omega
      · intro l hl
        rcases List.mem_append.1 hl with hl | hl
        · obtain ⟨h9, h10, h11⟩ := h3 l hl
          rw [h9, h10]
          exact ⟨hxy, by rw [← h9, ← h10]; exact h11⟩
        · obtain ⟨h9, h10⟩ := h7 l hl
          exact ⟨h9.cons x, h10⟩
      · intro a b hc
        rcases consecutive_cons hc with ⟨rfl, rfl⟩ | hc
        · obtain ⟨l, hl, h9⟩ := h4
          refine ⟨l, ?_, h9⟩
          rw [← List.append_assoc]
          exact List.mem_append_left _ hl
        · obtain ⟨l, hl, h9⟩ := h8 a b hc
          exact ⟨l, by simpa using hl, h9⟩

theorem orderable_spec (h : Hugr Ops.Op Meta) (xs : List Nat)
    (hx : ∀ x ∈ xs, ∀ t, h.ops x ≠ .input t ∧ h.ops x ≠ .output t) :
    orderable h xs = some (xs.filter fun x => CanOrder h x) := by
  induction xs with
  | nil => rfl
  | cons x xs ih =>
    have h1 := hx x (by simp)
    have h2 := ih fun y hy => hx y (List.mem_cons_of_mem _ hy)
    have heq : (h.ops x).otherInput = (h.ops x).otherOutput := by
      revert h1
      cases h.ops x <;> simp [Ops.Op.otherInput, Ops.Op.otherOutput]
    unfold orderable
    rw [h2]
    by_cases hc : (h.ops x).otherInput = some .stateOrder
    · rw [if_pos (Or.inl hc), if_pos heq, List.filter_cons_of_pos]
      · rfl
      · simp only [decide_eq_true_eq]
        exact ⟨hc, heq ▸ hc⟩
    · rw [if_neg (by rw [← heq]; simpa using hc), List.filter_cons_of_neg]
      simp only [decide_eq_true_eq]
      exact fun hc' => hc hc'.1

theorem idxOf_lt {l xs ys : List Nat} {a b : Nat} (hnd : l.Nodup) (heq : l = xs ++ b :: ys)
    (ha : a ∈ xs) : l.idxOf a < l.idxOf b := by
  subst heq
  have hb : b ∉ xs := by
    rw [List.nodup_append] at hnd
    exact fun hb => hnd.2.2 b hb b (by simp) rfl
  rw [List.idxOf_append_of_mem ha, List.idxOf_append_of_notMem hb]
  have := List.idxOf_lt_length_of_mem ha
  omega

theorem Consecutive.sublist {l l' : List Nat} {a b : Nat} (hc : Consecutive l a b)
    (hs : l.Sublist l') : ∃ xs ys, l' = xs ++ b :: ys ∧ a ∈ xs := by
  obtain ⟨xs, ys, rfl⟩ := hc
  rw [List.append_sublist_iff] at hs
  obtain ⟨r1, r2, rfl, _, h2⟩ := hs
  rw [List.cons_sublist_iff] at h2
  obtain ⟨r3, r4, rfl, h3, h4⟩ := h2
  rw [List.cons_sublist_iff] at h4
  obtain ⟨r5, r6, rfl, h5, _⟩ := h4
  obtain ⟨s, t, rfl⟩ := List.append_of_mem h5
  exact ⟨r1 ++ r3 ++ s, t ++ r6, by simp, by simp [h3]⟩

theorem Consecutive.mem {l : List Nat} {a b : Nat} (hc : Consecutive l a b) : a ∈ l ∧ b ∈ l := by
  obtain ⟨xs, ys, rfl⟩ := hc
  simp

/-- What the edges added for one region achieve. -/
theorem orderRegion_spec {h : Hugr Ops.Op Meta} (ht : IsTree h) (hl : LinksOk h)
    (hpm : PortsMatch opsInfo.toOpInfo h) (htag : TagsOk h)
    (rank : Hugr Ops.Op Meta → Nat → K) {dp i o : Nat} {cs : List Nat}
    (hdp : Ops.OpTag.isSuperset .dataflowParent (h.ops dp).opTag = true)
    (hch : h.hier.children dp = i :: o :: cs) (hi : ∃ t, h.ops i = .input t)
    (ho : ∃ t, h.ops o = .output t)
    (hcs : ∀ c ∈ cs, ∀ t, h.ops c ≠ .input t ∧ h.ops c ≠ .output t)
    (hac : NoCycle (SiblingEdge h dp)) :
    ∃ order new, orderRegion rank h dp = some { h with links := h.links ++ new } ∧
      GreedyOrder cs (SiblingEdge h dp) (rank h) order ∧ new.length ≤ cs.length + 1 ∧
      (∀ l ∈ new, Consecutive (i :: order.filter (fun n => CanOrder h n) ++ [o]) l.src l.dst ∧
        OrderLink h l ∧ l.srcPort < h.outs l.src ∧ l.dstPort < h.ins l.dst) ∧
      (∀ a b, Consecutive (i :: order.filter (fun n => CanOrder h n) ++ [o]) a b →
        ∃ l ∈ h.links ++ new, l.src = a ∧ l.dst = b) ∧
      NoCycle (SiblingEdge { h with links := h.links ++ new } dp) := by
  have hnd := ht.child_once dp
  rw [hch] at hnd
  simp only [List.nodup_cons, List.mem_cons, not_or] at hnd
  obtain ⟨⟨hio, hics⟩, hocs, hcsnd⟩ := hnd
  have hpar : ∀ x, h.hier.parent x = some dp ↔ x = i ∨ x = o ∨ x ∈ cs := by
    intro x; rw [← ht.child_iff, hch]; simp
  have hlive : ∀ x, (x = i ∨ x = o ∨ x ∈ cs) → h.live x = true := fun x hx =>
    (ht.parent_live x dp ((hpar x).2 hx)).1
  have hnodes : regionNodes h dp i o = cs := by
    have hc : h.children dp = i :: o :: cs := hch
    unfold regionNodes
    rw [hc, List.filter_cons_of_neg (by simp), List.filter_cons_of_neg (by simp),
      List.filter_eq_self]
    intro a ha
    have h1 : a ≠ i := fun he => hics (he ▸ ha)
    have h2 : a ≠ o := fun he => hocs (he ▸ ha)
    simp [h1, h2]
  -- nothing leads into the input or out of the output
  have hnoin : ∀ l ∈ h.links, l.dst ≠ i := by
    intro l hm he
    obtain ⟨t, hop⟩ := hi
    have h1 := (hl l hm).2.2.2
    rw [he, (hpm i (hlive i (Or.inl rfl))).1, hop] at h1
    exact absurd h1 (by simp [opsInfo, runGet, Ops.Op.portCount, Ops.Op.valuePortCount,
      Ops.Op.dataflowSignature, Ops.Run.map, Ops.sigRow, Ops.Op.staticPortKind, Ops.Op.staticInput,
      Ops.Op.nonDfPortCount, Ops.Op.otherPortKind, Ops.Op.otherInput])
  have hnoout : ∀ l ∈ h.links, l.src ≠ o := by
    intro l hm he
    obtain ⟨t, hop⟩ := ho
    have h1 := (hl l hm).2.1
    rw [he, (hpm o (hlive o (Or.inr (Or.inl rfl)))).2, hop] at h1
    exact absurd h1 (by simp [opsInfo, runGet, Ops.Op.portCount, Ops.Op.valuePortCount,
      Ops.Op.dataflowSignature, Ops.Run.map, Ops.sigRow, Ops.Op.staticPortKind, Ops.Op.staticOutput,
      Ops.Op.nonDfPortCount, Ops.Op.otherPortKind, Ops.Op.otherOutput])
  have hgreedy := orderNodes_spec (rank h) (succ := regionSucc h cs) (pred := regionPred h cs)
    (edge := SiblingEdge h dp) hcsnd
    (by
      intro a ha b
      simp only [regionSucc, List.mem_filter, List.mem_map, beq_iff_eq, decide_eq_true_eq]
      constructor
      · rintro ⟨⟨l, ⟨h1, h2⟩, h3⟩, h4⟩
        exact ⟨h4, (hpar a).2 (Or.inr (Or.inr ha)), (hpar b).2 (Or.inr (Or.inr h4)), l, h1, h2, h3⟩
      · rintro ⟨h4, _, _, l, h1, h2, h3⟩
        exact ⟨⟨l, ⟨h1, h2⟩, h3⟩, h4⟩)
    (by
      intro a b hb
      simp only [regionSucc, List.mem_filter, decide_eq_true_eq] at hb
      exact hb.2)
    (by
      intro b hb a
      simp only [regionPred, List.mem_filter, List.mem_map, beq_iff_eq, decide_eq_true_eq]
      constructor
      · rintro ⟨⟨l, ⟨h1, h2⟩, h3⟩, h4⟩
        exact ⟨h4, (hpar a).2 (Or.inr (Or.inr h4)), (hpar b).2 (Or.inr (Or.inr hb)), l, h1, h3, h2⟩
      · rintro ⟨h4, _, _, l, h1, h2, h3⟩
        exact ⟨⟨l, ⟨h1, h3⟩, h2⟩, h4⟩) hac
  generalize hord : orderNodes cs (regionSucc h cs) (regionPred h cs) (rank h) = order at hgreedy
  have hmem : ∀ x, x ∈ order ↔ x ∈ cs := fun x => hgreedy.perm.mem_iff
  -- the chain and its positions in the list of all children
  have hfull : (i :: order ++ [o]).Nodup := by
    simp only [List.cons_append, List.nodup_cons, List.mem_append, List.mem_singleton, not_or, hmem,
      List.nodup_append, List.not_mem_nil, not_false_eq_true, List.nodup_nil, and_true]
    refine ⟨⟨hics, hio⟩, hgreedy.perm.nodup_iff.2 hcsnd, ?_⟩
    refine ⟨trivial, ?_⟩
    rintro a ha b rfl rfl
    exact hocs ha
  have hsub : (i :: order.filter (fun n => CanOrder h n) ++ [o]).Sublist (i :: order ++ [o]) :=
    ((List.filter_sublist).cons₂ i).append (List.Sublist.refl _)
  have hchain : ∀ a b, Consecutive (i :: order.filter (fun n => CanOrder h n) ++ [o]) a b →
      (h.ops a).otherOutput = some .stateOrder ∧ (h.ops b).otherInput = some .stateOrder := by
    intro a b hc
    obtain ⟨ha, hb⟩ := hc.mem
    obtain ⟨xs, ys, heq, hax⟩ := hc.sublist hsub
    have hlt := idxOf_lt hfull heq hax
    constructor
    · simp only [List.cons_append, List.mem_cons, List.mem_append, List.mem_filter,
        decide_eq_true_eq, List.not_mem_nil, or_false] at ha
      rcases ha with rfl | ⟨_, ha⟩ | rfl
      · obtain ⟨t, hop⟩ := hi; rw [hop]; rfl
      · exact ha.2
      · exfalso
        -- nothing comes after the output
        have h1 : (i :: order ++ [a]).idxOf a = (i :: order).length := by
          rw [List.idxOf_append_of_notMem]
          · simp
          · have := hfull
            rw [List.nodup_append] at this
            exact fun hm => this.2.2 a hm a (by simp) rfl
        have h2 : (i :: order ++ [a]).idxOf b < (i :: order ++ [a]).length :=
          List.idxOf_lt_length_of_mem (hsub.subset hb)
        simp only [List.length_append, List.length_singleton] at h2
        omega
    · simp only [List.cons_append, List.mem_cons, List.mem_append, List.mem_filter,
        decide_eq_true_eq, List.not_mem_nil, or_false] at hb
      rcases hb with rfl | ⟨_, hb⟩ | rfl
      · exfalso
        have h1 : (b :: order ++ [o]).idxOf b = 0 := by simp
        omega
      · exact hb.1
      · obtain ⟨t, hop⟩ := ho; rw [hop]; rfl
  obtain ⟨new, h1, h2, h3, h4⟩ := orderEdges_spec
    (i :: order.filter (fun n => CanOrder h n) ++ [o]) h hpm htag
    (by
      intro x hx
      apply hlive
      have := hsub.subset hx
      simp only [List.cons_append, List.mem_cons, List.mem_append, List.not_mem_nil, or_false,
        hmem] at this
      tauto)
    (fun a b hc => (hchain a b hc).1) (fun a b hc => (hchain a b hc).2)
  refine ⟨order, new, ?_, hgreedy, ?_, h3, h4, ?_⟩
  · unfold orderRegion
    have hio' : getIo h dp = some (i, o) := by
      have hc : h.children dp = i :: o :: cs := hch
      unfold getIo
      rw [if_pos hdp, hc]
    rw [hio']
    simp only [hnodes, hord]
    rw [orderable_spec h order fun x hx => hcs x ((hmem x).1 hx)]
    exact h1
  · have := List.length_filter_le (fun n => decide (CanOrder h n)) order
    have hlen := hgreedy.perm.length_eq
    simp only [List.cons_append, List.length_cons, List.length_append, List.length_singleton,
      List.length_nil] at h2
    omega
  · -- every edge goes forward in the list of all children
    have hfwd : ∀ a b, SiblingEdge { h with links := h.links ++ new } dp a b →
        (i :: order ++ [o]).idxOf a < (i :: order ++ [o]).idxOf b := by
      rintro a b ⟨ha, hb, l, hm, rfl, rfl⟩
      rcases List.mem_append.1 hm with hm | hm
      · have ha' := (hpar _).1 ha
        have hb' := (hpar _).1 hb
        rcases hb' with hb' | hb' | hb'
        · exact absurd hb' (hnoin l hm)
        · refine idxOf_lt (xs := i :: order) (ys := []) hfull (by rw [hb']) ?_
          rcases ha' with ha' | ha' | ha'
          · rw [ha']; simp
          · exact absurd ha' (hnoout l hm)
          · exact List.mem_cons_of_mem _ ((hmem _).2 ha')
        · obtain ⟨xs, ys, heq⟩ := List.append_of_mem ((hmem _).2 hb')
          refine idxOf_lt (xs := i :: xs) (ys := ys ++ [o]) hfull (by rw [heq]; simp) ?_
          rcases ha' with ha' | ha' | ha'
          · rw [ha']; simp
          · exact absurd ha' (hnoout l hm)
          · exact List.mem_cons_of_mem _
              (hgreedy.allowed xs _ ys heq _ ha' ⟨ha, hb, l, hm, rfl, rfl⟩)
      · obtain ⟨xs, ys, heq, hax⟩ := (h3 l hm).1.sublist hsub
        exact idxOf_lt hfull heq hax
    intro n hn
    have : ∀ b, Relation.TransGen (SiblingEdge { h with links := h.links ++ new } dp) n b →
        (i :: order ++ [o]).idxOf n < (i :: order ++ [o]).idxOf b := by
      intro b hb
      induction hb with
      | single he => exact hfwd _ _ he
      | tail _ he ih => exact lt_trans (ih) (hfwd _ _ he)
    exact absurd (this n hn) (lt_irrefl _)

theorem isTree_links {h : Hugr Ops.Op Meta} (ht : IsTree h) (ls : List Link) :
    IsTree { h with links := ls } :=
  ⟨ht.1, ht.2, ht.3, ht.4, ht.5, ht.6, ht.7, ht.8, ht.9⟩

/-- Links between children of other nodes are not links between children of `dp`. -/
theorem siblingEdge_other {h : Hugr Ops.Op Meta} {dp : Nat} {new : List Link}
    (hnew : ∀ l ∈ new, h.hier.parent l.src ≠ some dp) :
    SiblingEdge { h with links := h.links ++ new } dp = SiblingEdge h dp := by
  funext a b
  apply propext
  constructor
  · rintro ⟨h1, h2, l, h3, h4, h5⟩
    rcases List.mem_append.1 h3 with h3 | h3
    · exact ⟨h1, h2, l, h3, h4, h5⟩
    · exact absurd (h4 ▸ h1) (hnew l h3)
  · rintro ⟨h1, h2, l, h3, h4, h5⟩
    exact ⟨h1, h2, l, List.mem_append_left _ h3, h4, h5⟩

/-- What ordering a list of regions achieves. -/
theorem orderRegions_spec (dps : List Nat) (h : Hugr Ops.Op Meta) (ht : IsTree h) (hl : LinksOk h)
    (hpm : PortsMatch opsInfo.toOpInfo h) (htag : TagsOk h)
    (rank : Hugr Ops.Op Meta → Nat → K) (hrank : ∀ ls, rank { h with links := ls } = rank h)
    (hnd : dps.Nodup)
    (hio : ∀ dp ∈ dps, Ops.OpTag.isSuperset .dataflowParent (h.ops dp).opTag = true ∧
      ∃ i o cs, h.hier.children dp = i :: o :: cs ∧
        (∃ t, h.ops i = .input t) ∧ (∃ t, h.ops o = .output t) ∧
        ∀ c ∈ cs, ∀ t, h.ops c ≠ .input t ∧ h.ops c ≠ .output t)
    (hac : ∀ dp ∈ dps, NoCycle (SiblingEdge h dp)) :
    ∃ (new : List Link) (order : Nat → List Nat),
      orderRegions rank h dps = some { h with links := h.links ++ new } ∧
      (∀ dp ∈ dps, ∀ i o cs, h.hier.children dp = i :: o :: cs →
        GreedyOrder cs (SiblingEdge h dp) (rank h) (order dp) ∧
        (∀ a b, Consecutive (i :: (order dp).filter (fun n => CanOrder h n) ++ [o]) a b →
          ∃ l ∈ h.links ++ new, l.src = a ∧ l.dst = b) ∧
        (new.filter fun l => h.hier.parent l.src = some dp).length ≤ cs.length + 1 ∧
        NoCycle (SiblingEdge { h with links := h.links ++ new } dp)) ∧
      ∀ l ∈ new, OrderLink h l ∧ l.srcPort < h.outs l.src ∧ l.dstPort < h.ins l.dst ∧
        ∃ dp ∈ dps, h.hier.parent l.src = some dp ∧ h.hier.parent l.dst = some dp ∧
          ∃ i o cs, h.hier.children dp = i :: o :: cs ∧
            Consecutive (i :: (order dp).filter (fun n => CanOrder h n) ++ [o]) l.src l.dst := by
  induction dps generalizing h with
  | nil => exact ⟨[], fun _ => [], by simp [orderRegions], by simp, by simp⟩
  | cons dp dps ih =>
    rw [List.nodup_cons] at hnd
    obtain ⟨hdp, i, o, cs, hch, hi, ho, hcs⟩ := hio dp (by simp)
    obtain ⟨ord, new1, h1, h2, h3, h4, h5, h6⟩ := orderRegion_spec ht hl hpm htag rank hdp hch hi ho
      hcs (hac dp (by simp))
    have hmem : ∀ x ∈ i :: ord.filter (fun n => CanOrder h n) ++ [o],
        h.hier.parent x = some dp := by
      intro x hx
      rw [← ht.child_iff, hch]
      simp only [List.cons_append, List.mem_cons, List.mem_append, List.mem_filter,
        List.not_mem_nil, or_false] at hx
      rcases hx with rfl | ⟨hx, _⟩ | rfl
      · simp
      · simp [h2.perm.mem_iff.1 hx]
      · simp
    have hnew1 : ∀ l ∈ new1, h.hier.parent l.src = some dp ∧ h.hier.parent l.dst = some dp :=
      fun l hm => ⟨hmem _ (h4 l hm).1.mem.1, hmem _ (h4 l hm).1.mem.2⟩
    have hother : ∀ dp' ∈ dps, SiblingEdge { h with links := h.links ++ new1 } dp' =
        SiblingEdge h dp' := by
      intro dp' hd'
      apply siblingEdge_other
      intro l hm he
      rw [(hnew1 l hm).1] at he
      cases he
      exact hnd.1 hd'
    obtain ⟨new2, order2, g1, g2, g3⟩ := ih { h with links := h.links ++ new1 }
      (isTree_links ht _)
      (by
        intro l hm
        rcases List.mem_append.1 hm with hm | hm
        · exact hl l hm
        · have := h4 l hm
          exact ⟨(ht.parent_live _ _ (hnew1 l hm).1).1, this.2.2.1,
            (ht.parent_live _ _ (hnew1 l hm).2).1, this.2.2.2⟩)
      hpm htag (fun ls => (hrank ls).trans (hrank _).symm) hnd.2
      (fun dp' hd' => hio dp' (List.mem_cons_of_mem _ hd'))
      (fun dp' hd' => by rw [hother dp' hd']; exact hac dp' (List.mem_cons_of_mem _ hd'))
    have hnew2 : ∀ l ∈ new2, h.hier.parent l.src ≠ some dp := by
      intro l hm he
      obtain ⟨_, _, _, dp', hd', h7, _⟩ := g3 l hm
      have h7' : h.hier.parent l.src = some dp' := h7
      rw [he] at h7'
      cases h7'
      exact hnd.1 hd'
    have hlinks : (h.links ++ new1) ++ new2 = h.links ++ (new1 ++ new2) := List.append_assoc _ _ _
    refine ⟨new1 ++ new2, fun d => if d = dp then ord else order2 d, ?_, ?_, ?_⟩
    · unfold orderRegions
      rw [h1]
      simp only
      rw [g1]
      simp only [hlinks]
    · intro d hd i' o' cs' hch'
      rcases List.mem_cons.1 hd with rfl | hd
      · rw [hch] at hch'
        simp only [List.cons.injEq] at hch'
        obtain ⟨rfl, rfl, rfl⟩ := hch'
        have hd' : (if d = d then ord else order2 d) = ord := if_pos rfl
        simp only [hd']
        refine ⟨h2, ?_, ?_, ?_⟩
        · intro a b hc
          obtain ⟨l, hm, hab⟩ := h5 a b hc
          exact ⟨l, by rw [← hlinks]; exact List.mem_append_left _ hm, hab⟩
        · rw [List.filter_append]
          have : (new2.filter fun l => h.hier.parent l.src = some d) = [] := by
            rw [List.filter_eq_nil_iff]
            intro l hm
            simpa using hnew2 l hm
          rw [this, List.append_nil]
          exact (List.length_filter_le _ _).trans h3
        · have := siblingEdge_other (h := { h with links := h.links ++ new1 }) (dp := d) hnew2
          simp only [hlinks] at this
          rw [this]
          exact h6
      · have hne : d ≠ dp := fun he => hnd.1 (he ▸ hd)
        have hd' : (if d = dp then ord else order2 d) = order2 d := if_neg hne
        simp only [hd']
        obtain ⟨k1, k2, k3, k4⟩ := g2 d hd i' o' cs' hch'
        rw [hother d hd, hrank] at k1
        refine ⟨k1, ?_, ?_, ?_⟩
        · rw [← hlinks]; exact k2
        · rw [List.filter_append]
          have : (new1.filter fun l => h.hier.parent l.src = some d) = [] := by
            rw [List.filter_eq_nil_iff]
            intro l hm
            simp only [decide_eq_true_eq]
            rw [(hnew1 l hm).1]
            intro he; cases he
            exact hne rfl
          rw [this, List.nil_append]
          exact k3
        · simp only [hlinks] at k4
          exact k4
    · intro l hm
      rcases List.mem_append.1 hm with hm | hm
      · obtain ⟨k1, k2, k3⟩ := h4 l hm
        refine ⟨k2, k3.1, k3.2, dp, by simp, (hnew1 l hm).1, (hnew1 l hm).2, i, o, cs, hch, ?_⟩
        have hd' : (if dp = dp then ord else order2 dp) = ord := if_pos rfl
        simp only [hd']; exact k1
      · obtain ⟨k1, k2, k3, d, hd, k4, k5, i', o', cs', k6, k7⟩ := g3 l hm
        refine ⟨k1, k2, k3, d, List.mem_cons_of_mem _ hd, k4, k5, i', o', cs', k6, ?_⟩
        have hne : d ≠ dp := fun he => hnd.1 (he ▸ hd)
        have hd' : (if d = dp then ord else order2 d) = order2 d := if_neg hne
        simp only [hd']; exact k7

/-- **C37** Forcing an order succeeds and only adds links. In every dataflow region below `root` all
the children but input and output are put in an order that respects the edges and takes the best rank
that they allow; the nodes that can be ordered are linked in this order, starting at the input and
ending at the output; a region of `c` children gets at most `c - 1` new links, which are order edges
between nodes that follow each other; and the region is still without cycles. -/
theorem C37_force_order (h : Hugr Ops.Op Meta) (ht : IsTree h) (hl : LinksOk h)
    (hpm : PortsMatch opsInfo.toOpInfo h) (htag : TagsOk h) (root : Nat)
    (hroot : h.live root = true) (hio : IoOk h root)
    (hac : ∀ dp, IsRegion h root dp → NoCycle (SiblingEdge h dp))
    (rank : Hugr Ops.Op Meta → Nat → K) (hrank : ∀ ls, rank { h with links := ls } = rank h) :
    ∃ (new : List Link) (order : Nat → List Nat),
      forceOrder h root rank = some { h with links := h.links ++ new } ∧
      (∀ dp, IsRegion h root dp → ∀ i o cs, h.hier.children dp = i :: o :: cs →
        GreedyOrder cs (SiblingEdge h dp) (rank h) (order dp) ∧
        (∀ a b, Consecutive (i :: (order dp).filter (fun n => CanOrder h n) ++ [o]) a b →
          ∃ l ∈ h.links ++ new, l.src = a ∧ l.dst = b) ∧
        (new.filter fun l => h.hier.parent l.src = some dp).length ≤ cs.length + 1 ∧
        NoCycle (SiblingEdge { h with links := h.links ++ new } dp)) ∧
      ∀ l ∈ new, OrderLink h l ∧ l.srcPort < h.outs l.src ∧ l.dstPort < h.ins l.dst ∧
        ∃ dp i o cs, IsRegion h root dp ∧ h.hier.children dp = i :: o :: cs ∧
          Consecutive (i :: (order dp).filter (fun n => CanOrder h n) ++ [o]) l.src l.dst := by
  have hen := descendants_enumerates ht hroot
  have hmem : ∀ dp, dp ∈ ((h.descendants root).filter fun n =>
      Ops.OpTag.isSuperset .dataflowParent (h.ops n).opTag) ↔ IsRegion h root dp := by
    intro dp
    rw [List.mem_filter, hen.mem]
    rfl
  obtain ⟨new, order, h1, h2, h3⟩ := orderRegions_spec _ h ht hl hpm htag rank hrank
    (hen.nodup.filter (fun n => Ops.OpTag.isSuperset .dataflowParent (h.ops n).opTag))
    (fun dp hd => ⟨((hmem dp).1 hd).2, hio dp ((hmem dp).1 hd)⟩)
    (fun dp hd => hac dp ((hmem dp).1 hd))
  refine ⟨new, order, h1, fun dp hd => h2 dp ((hmem dp).2 hd), ?_⟩
  intro l hm
  obtain ⟨k1, k2, k3, dp, hd, _, _, i, o, cs, k6, k7⟩ := h3 l hm
  exact ⟨k1, k2, k3, dp, i, o, cs, (hmem dp).1 hd, k6, k7⟩

/-- **C37** There is at most one order that is greedy. -/
theorem C37_order_unique (nodes : List Nat) (edge : Nat → Nat → Prop) (rank : Nat → K)
    (o1 o2 : List Nat) (hn : nodes.Nodup) (h1 : GreedyOrder nodes edge rank o1)
    (h2 : GreedyOrder nodes edge rank o2) : o1 = o2 := by
  have key : ∀ xs r1 r2, o1 = xs ++ r1 → o2 = xs ++ r2 → r1 = r2 := by
    intro xs r1
    induction r1 generalizing xs with
    | nil =>
      intro r2 e1 e2
      have := h1.perm.length_eq.trans h2.perm.length_eq.symm
      rw [e1, e2] at this
      simp only [List.append_nil, List.length_append] at this
      exact (List.length_eq_zero_iff.1 (by omega)).symm
    | cons a r1 ih =>
      intro r2 e1 e2
      cases r2 with
      | nil =>
        have := h1.perm.length_eq.trans h2.perm.length_eq.symm
        rw [e1, e2] at this
        simp at this
      | cons b r2 =>
        have hperm : (a :: r1).Perm (b :: r2) := by
          have := h1.perm.trans h2.perm.symm
          rw [e1, e2] at this
          exact (List.perm_append_left_iff xs).1 this
        have hab : a = b := by
          by_contra hne
          have hb : b ∈ r1 := by
            have := hperm.mem_iff.2 (List.mem_cons_self (a := b) (l := r2))
            rcases List.mem_cons.1 this with h | h
            · exact absurd h.symm hne
            · exact h
          have ha : a ∈ r2 := by
            have := hperm.mem_iff.1 (List.mem_cons_self (a := a) (l := r1))
            rcases List.mem_cons.1 this with h | h
            · exact absurd h hne
            · exact h
          have c1 := h1.greedy xs a r1 e1 b hb (h2.allowed xs b r2 e2)
          have c2 := h2.greedy xs b r2 e2 a ha (h1.allowed xs a r1 e1)
          rcases c1 with c1 | ⟨c1, c1'⟩ <;> rcases c2 with c2 | ⟨c2, c2'⟩
          · exact absurd (lt_trans c1 c2) (lt_irrefl _)
          · rw [c2] at c1; exact lt_irrefl _ c1
          · rw [c1] at c2; exact lt_irrefl _ c2
          · omega
        subst hab
        rw [ih (xs ++ [a]) r2 (by rw [e1]; simp) (by rw [e2]; simp)]
  exact key [] o1 o2 rfl rfl

/-! ## Example -/

/-- A function with a chain 4 → 5 and an operation 6, all independent of the input. -/
def orderHistory : List (Cmd Ops.Op String) :=
  [ .addNodeWithParent 1 0 (.funcDefn "main" ⟨[], ⟨[], []⟩⟩),
    .addNodeWithParent 2 1 (.input []), .addNodeWithParent 3 1 (.output []),
    .addNodeWithParent 4 1 (.extensionOp "e" "a" [] ⟨[], [bool]⟩),
    .addNodeWithParent 5 1 (.extensionOp "e" "b" [] ⟨[bool], []⟩),
    .addNodeWithParent 6 1 (.extensionOp "e" "c" [] ⟨[], []⟩),
    .connect ⟨4, 0, 5, 0⟩ ]

/-- Node 4 has the greatest rank, node 5 the least. -/
def orderRank (n : Nat) : Int := if n = 4 then 10 else if n = 5 then 0 else 5

/-- The order: 6 first as 4 has a greater rank, although 5 has the least. -/
example : (forceOrder (built orderHistory) 0 fun _ => orderRank).map (fun g => g.links) =
    some [⟨4, 0, 5, 0⟩, ⟨2, 0, 6, 0⟩, ⟨6, 0, 4, 0⟩, ⟨5, 0, 3, 0⟩] := by decide +kernel

/-- The example meets the hypotheses. -/
example : IsTree (built orderHistory) ∧ LinksOk (built orderHistory) ∧
    PortsMatch opsInfo.toOpInfo (built orderHistory) ∧ TagsOk (built orderHistory) ∧
    (built orderHistory).live 0 = true ∧ IoOk (built orderHistory) 0 ∧
    ∀ dp, IsRegion (built orderHistory) 0 dp → NoCycle (SiblingEdge (built orderHistory) dp) := by
  obtain ⟨h1, h2⟩ := built_ok orderHistory (by decide +kernel) (by decide +kernel)
  have hreg : ∀ dp, IsRegion (built orderHistory) 0 dp → dp = 1 := by
    intro dp hd
    have hlive : (built orderHistory).live dp = true := by
      cases hd.1 with
      | refl => exact h1.root_live
      | step hp _ => exact (h1.parent_live _ _ hp).1
    have hlt : dp < 7 := h1.in_range dp hlive
    have key : ∀ d < 7, Ops.OpTag.isSuperset .dataflowParent ((built orderHistory).ops d).opTag =
        true → d = 1 := by decide +kernel
    exact key dp hlt hd.2
  refine ⟨h1, h2, ?_, ?_, by decide +kernel, ?_, ?_⟩
  · intro n hn
    have hlt : n < 7 := h1.in_range n hn
    have key : ∀ n < 7, (built orderHistory).ins n =
        opsInfo.toOpInfo.inputs ((built orderHistory).ops n) ∧
      (built orderHistory).outs n = opsInfo.toOpInfo.outputs ((built orderHistory).ops n) := by
      decide +kernel
    exact key n hlt
  · intro n hn
    have hlt : n < 7 := h1.in_range n hn
    have key : ∀ n < 7, ((built orderHistory).ops n).dataflowSignature ≠ .panic := by
      decide +kernel
    exact key n hlt
  · intro dp hd
    rw [hreg dp hd]
    refine ⟨2, 3, [4, 5, 6], by decide +kernel, ⟨[], rfl⟩, ⟨[], rfl⟩, ?_⟩
    intro c hc t
    fin_cases hc <;> exact ⟨nofun, nofun⟩
  · intro dp _ n hn
    have he : ∀ a b, SiblingEdge (built orderHistory) dp a b → a = 4 ∧ b = 5 := by
      rintro a b ⟨_, _, l, hl, rfl, rfl⟩
      have hlinks : (built orderHistory).links = [⟨4, 0, 5, 0⟩] := by decide +kernel
      rw [hlinks] at hl
      simp only [List.mem_singleton] at hl
      subst hl
      exact ⟨rfl, rfl⟩
    have : ∀ b, Relation.TransGen (SiblingEdge (built orderHistory) dp) n b → n = 4 ∧ b = 5 := by
      intro b hb
      induction hb with
      | single h => exact he _ _ h
      | tail _ h ih => exact ⟨ih.1, (he _ _ h).2⟩
    have := this n hn
    omega

/-! ## Findings -/

/-- **C37** Finding: the documentation says that a node of lower rank is ordered before a node of
greater rank if there is no path from the latter to the former. This fails: 5 has a lower rank than 6
and does not depend on it, but 6 comes first. -/
theorem C37_rank_refuted :
    ∃ g, forceOrder (built orderHistory) 0 (fun _ => orderRank) = some g ∧
      orderRank 5 < orderRank 6 ∧
      ¬ Relation.TransGen (SiblingEdge (built orderHistory) 1) 6 5 ∧
      (⟨6, 0, 4, 0⟩ : Link) ∈ g.links ∧ (⟨4, 0, 5, 0⟩ : Link) ∈ g.links := by
  refine ⟨_, rfl, by decide, ?_, by decide +kernel, by decide +kernel⟩
  intro hp
  have hlinks : (built orderHistory).links = [⟨4, 0, 5, 0⟩] := by decide +kernel
  have : ∀ b, ¬ SiblingEdge (built orderHistory) 1 6 b := by
    rintro b ⟨_, _, l, hl, h1, _⟩
    rw [hlinks] at hl
    simp only [List.mem_singleton] at hl
    subst hl
    cases h1
  rw [Relation.TransGen.head'_iff] at hp
  obtain ⟨c, hc, _⟩ := hp
  exact this c hc

/-- **C37** Finding: no order at all can do what the documentation says. In this graph every order
that respects the edge and puts nodes of lower rank first unless there is a path is contradictory:
4 must come before 5, 5 before 6 and 6 before 4. -/
theorem C37_rank_unsatisfiable :
    ¬ ∃ before : Nat → Nat → Prop, (∀ a b c, before a b → before b c → before a c) ∧
      (∀ a, ¬ before a a) ∧
      (∀ a b, SiblingEdge (built orderHistory) 1 a b → before a b) ∧
      ∀ a ∈ [4, 5, 6], ∀ b ∈ [4, 5, 6], orderRank a < orderRank b →
        ¬ Relation.TransGen (SiblingEdge (built orderHistory) 1) b a → before a b := by
  rintro ⟨before, htr, hirr, hedge, hrk⟩
  have hlinks : (built orderHistory).links = [⟨4, 0, 5, 0⟩] := by decide +kernel
  have hno : ∀ x b, x ≠ 4 → ¬ Relation.TransGen (SiblingEdge (built orderHistory) 1) x b := by
    intro x b hx hp
    rw [Relation.TransGen.head'_iff] at hp
    obtain ⟨c, ⟨_, _, l, hl, h1, _⟩, _⟩ := hp
    rw [hlinks] at hl
    simp only [List.mem_singleton] at hl
    subst hl
    exact hx h1.symm
  have h45 : before 4 5 := hedge 4 5
    ⟨by decide +kernel, by decide +kernel, ⟨4, 0, 5, 0⟩, by rw [hlinks]; simp, rfl, rfl⟩
  have h56 : before 5 6 := hrk 5 (by simp) 6 (by simp) (by decide) (hno 6 5 (by decide))
  have h64 : before 6 4 := by
    refine hrk 6 (by simp) 4 (by simp) (by decide) ?_
    intro hp
    have he : ∀ b, Relation.TransGen (SiblingEdge (built orderHistory) 1) 4 b → b = 5 := by
      intro b hb
      have he' : ∀ a b, SiblingEdge (built orderHistory) 1 a b → b = 5 := by
        rintro a b ⟨_, _, l, hl, _, rfl⟩
        rw [hlinks] at hl
        simp only [List.mem_singleton] at hl
        subst hl; rfl
      cases hb with
      | single h => exact he' _ _ h
      | tail _ h => exact he' _ _ h
    have := he 6 hp
    omega
  exact hirr 4 (htr 4 6 4 (htr 4 5 6 h45 h56) h64)

end Verif.Passes
