import Verif.Patch.SimpleReplaceRuns

/-!
# Replacing a subgraph: the replacement can do what the subgraph did
-/
namespace Verif.Patch

open Verif.Graph Verif.Ops Verif.Passes Verif.Validate Verif.Dataflow

variable {Meta W E : Type} {C C' : Validate.Context} {h r g : Hugr Ops.Op Meta} {s : Subgraph} {i o p : Nat}
  {f : Nat → Nat}

namespace SwapAt

/-- The node at the top of the replacement that has become `n`. -/
noncomputable def origin (r : Hugr Ops.Op Meta) (i o : Nat) (f : Nat → Nat) (n : Nat) : Option Nat := by
  classical
  exact if hn : ∃ x, Fresh r i o x ∧ r.hier.parent x = some r.entrypoint ∧ n = f x then some hn.choose else none

variable (z : SwapAt C C' h r g p i o s f)
include z

theorem origin_new {x : Nat} (hx : Fresh r i o x) (hp : r.hier.parent x = some r.entrypoint) : origin r i o f (f x) = some x := by
  have hn : ∃ y, Fresh r i o y ∧ r.hier.parent y = some r.entrypoint ∧ f x = f y := ⟨x, hx, hp, rfl⟩
  unfold origin
  rw [dif_pos hn, ← z.replaced.injective _ _ hx hn.choose_spec.1 hn.choose_spec.2.2]

omit z in
theorem origin_none {n : Nat} (hn : ∀ x, Fresh r i o x → r.hier.parent x = some r.entrypoint → n ≠ f x) :
    origin r i o f n = none := by
  unfold origin
  rw [dif_neg]
  rintro ⟨x, h1, h2, h3⟩
  exact hn x h1 h2 h3

theorem origin_old {n : Nat} (hn : h.live n = true) : origin r i o f n = none :=
  origin_none fun _ hx _ => z.old hn hx

theorem origin_inner {x : Nat} (hx : Fresh r i o x) (hp : r.hier.parent x ≠ some r.entrypoint) : origin r i o f (f x) = none := by
  refine origin_none fun y hy hyp e => hp ?_
  rw [z.replaced.injective _ _ hx hy e]; exact hyp

theorem hasIO_entry {a b : Nat} (hio : HasIO r r.entrypoint a b) : a = i ∧ b = o := by
  obtain ⟨_, _, rest, _, hch, _⟩ := z.children
  obtain ⟨rest', hr⟩ := hio
  rw [hch] at hr
  simp only [List.cons.injEq] at hr
  exact ⟨hr.1.symm, hr.2.1.symm⟩

variable {S Sr S' : Sem W E}

omit z in
/-- What a run gives with the replacement. -/
def Fwd (h : Hugr Ops.Op Meta) (S : Sem W E) (g : Hugr Ops.Op Meta) (S' : Sem W E) (r : Hugr Ops.Op Meta) (s : Subgraph)
    (i o : Nat) (f : Nat → Nat) : Task W → Prop
  | .graph ρ P vals outs σ => P ∉ s.nodes → ∀ ρ', AgreeH h r s i o f ρ ρ' →
      ∃ σ', Runs g S' (.graph ρ' P vals outs σ') ∧ AgreeH h r s i o f σ σ'
  | .node ρ n ins outs => (n ∈ s.nodes → Runs (bodiless h) (answering S (Answer g S')) (.node noWires n ins outs)) ∧
      (h.live n = true → n ∉ s.nodes → ∀ ρ', AgreeH h r s i o f ρ ρ' → Runs g S' (.node ρ' n ins outs))
  | .loop ρ n ins outs => h.live n = true → n ∉ s.nodes → ∀ ρ', AgreeH h r s i o f ρ ρ' → Runs g S' (.loop ρ' n ins outs)
  | .blocks ρ b ins outs => h.live b = true → ∀ ρ', AgreeH h r s i o f ρ ρ' → Runs g S' (.blocks ρ' b ins outs)

theorem hasIO_host {P a b : Nat} (hio : HasIO h P a b) : h.hier.parent a = some P ∧ h.hier.parent b = some P := by
  obtain ⟨rest, hr⟩ := hio
  have hr : h.hier.children P = _ := hr
  exact ⟨(z.tree.child_iff _ _).1 (by rw [hr]; simp), (z.tree.child_iff _ _).1 (by rw [hr]; simp)⟩

/-- The region of the subgraph. -/
theorem forward_p (hS : Merges h r s i o f S Sr S') (hA : Allows h S s r Sr) {ρ σ ρ' : Wires W} {i0 o0 : Nat}
    {vals res : List (Val W)} {ins outs : Nat → List (Val W)} (hio : HasIO h p i0 o0)
    (hout : ∀ n, n ∉ h.children p → σ n = ρ n) (hvals : σ i0 = outWires vals)
    (hlen : vals.length = numOuts (h.ops i0)) (hno : σ o0 = outWires [])
    (hready : ∀ n, Inner h p i0 o0 n → Ready h σ n (ins n))
    (hval : ∀ n, Inner h p i0 o0 n → σ n = outWires (outs n))
    (hsize : ∀ n, Inner h p i0 o0 n → (outs n).length = numOuts (h.ops n)) (hres : Ready h σ o0 res)
    (ih : ∀ n, Inner h p i0 o0 n → Fwd h S g S' r s i o f (.node σ n (ins n) (outs n)))
    (ha : AgreeH h r s i o f ρ ρ') :
    ∃ σ', Runs g S' (.graph ρ' p vals res σ') ∧ AgreeH h r s i o f σ σ' := by
  obtain ⟨ip, op, ti, tj, hioh, hiog, e1, e2, n1, n2, pi, po⟩ := z.io_kept
  obtain ⟨rfl, rfl⟩ := hasIO_fun hio hioh
  have hin : ∀ n ∈ s.nodes, Inner h p i0 o0 n := fun n hn =>
    ⟨(z.tree.child_iff _ _).2 (z.removable.parent n hn), fun e => n1 (e ▸ hn), fun e => n2 (e ▸ hn)⟩
  have hlive : ∀ n, h.hier.parent n = some p → h.live n = true := fun n hn => z.child_live hn
  -- the values at the inputs
  obtain ⟨insV, i1, i2⟩ : ∃ L : List (Val W), L.length = s.inputs.length ∧
      ∀ k v, L[k]? = some v → ∃ a ap, Feeds h s k a ap ∧ σ a ap = some v := by
    refine choose_list fun k hk => ?_
    obtain ⟨a, ap, hf⟩ := z.feeds_of (List.getElem?_eq_getElem hk)
    obtain ⟨n, np, rest, f1, f2, f3, f4⟩ := z.feeds_link hf
    obtain ⟨t, _, _, _, _, k1, _⟩ := z.feeds_kind hf
    obtain ⟨kind, k2, k3⟩ := link_kinds z.valid f3
    simp only [srcKind] at k2 k3
    rw [k1] at k2; cases k2
    have hlt := in_lt (z.valid.tags n (z.node_live f2)) k3
    have hv := ready_value z.valid (z.node_live f2) (hready n (hin n f2)) f3 rfl k3 hlt
    simp only [] at hv
    rw [List.getElem?_eq_getElem (by rw [(hready n (hin n f2)).1]; exact hlt)] at hv
    exact ⟨_, a, ap, hf, hv⟩
  have hfeeds : ∀ k a ap, Feeds h s k a ap → σ a ap = insV[k]? := by
    intro k a ap hf
    obtain ⟨n, np, rest, f1, f2, f3, f4⟩ := z.feeds_link hf
    have hk : k < insV.length := by rw [i1]; exact (List.getElem?_eq_some_iff.1 f1).1
    obtain ⟨a', ap', hf', hv⟩ := i2 k _ (List.getElem?_eq_getElem hk)
    obtain ⟨q1, q2⟩ := z.feeds_src hf' f1 f3 (by simp)
    simp only [] at q1 q2
    rw [List.getElem?_eq_getElem hk, q1, q2]; exact hv
  -- the values at the outputs
  obtain ⟨outsV, o1, o2⟩ : ∃ L : List (Val W), L.length = s.outputs.length ∧
      ∀ (j : Nat) v, L[j]? = some v → ∃ n np, s.outputs[j]? = some (n, np) ∧ σ n np = some v := by
    refine choose_list fun j hj => ?_
    obtain ⟨⟨n, np⟩, hj'⟩ : ∃ q, s.outputs[j]? = some q := ⟨_, List.getElem?_eq_getElem hj⟩
    have hn : n ∈ s.nodes := z.removable.outputs _ (List.mem_of_getElem? hj')
    obtain ⟨t, ht, _⟩ := z.output_kind hj'
    have hlt := out_lt (z.valid.tags n (z.node_live hn)) ht
    rw [← hsize n (hin n hn)] at hlt
    exact ⟨_, n, np, hj', by rw [hval n (hin n hn)]; exact List.getElem?_eq_getElem hlt⟩
  have houtputs : ∀ (j n np : Nat), s.outputs[j]? = some (n, np) → σ n np = outsV[j]? := by
    intro j n np hj
    have hlt : j < outsV.length := by rw [o1]; exact (List.getElem?_eq_some_iff.1 hj).1
    obtain ⟨n', np', hj', hv⟩ := o2 j _ (List.getElem?_eq_getElem hlt)
    rw [hj] at hj'; cases hj'
    rw [List.getElem?_eq_getElem hlt]; exact hv
  have hsub : SubMeans h S s (Answer g S') insV outsV := by
    refine ⟨i1, o1, σ, ins, outs, fun n hn => ⟨(hready n (hin n hn)).1, fun port v hv => ?_, hval n (hin n hn),
      hsize n (hin n hn), (ih n (hin n hn)).1 hn⟩, houtputs⟩
    obtain ⟨l, l1, l2, l3, l4⟩ := (hready n (hin n hn)).2 port v hv
    by_cases hs : l.src ∈ s.nodes
    · exact .inr ⟨l, l1, hs, l2, l3, l4⟩
    · left
      obtain ⟨t, ht⟩ := z.in_port (z.node_live hn) (hready n (hin n hn)).1 hv
      obtain ⟨kind, k1, k2⟩ := link_kinds z.valid l1
      rw [l2, l3, ht] at k2; cases k2
      obtain ⟨part, hpart, hmem⟩ := z.sep.enters l l1 hs (by rw [l2]; exact hn) t k1
      obtain ⟨k, hk⟩ := List.mem_iff_getElem?.1 hpart
      obtain ⟨a, ap, hf⟩ := z.feeds_of hk
      obtain ⟨q1, q2⟩ := z.feeds_src hf hk l1 hmem
      rw [l2, l3] at hmem
      exact ⟨k, part, hk, hmem, by rw [← hfeeds _ _ _ hf, ← q1, ← q2]; exact l4⟩
  obtain ⟨τ, hτ⟩ := hA _ _ _ hsub
  obtain ⟨ri, ro, insR, outsR, tio, tout, tvals, tlen, tno, tready, tval, tsize, truns, tres⟩ :
      ∃ ri ro, ∃ insR outsR : Nat → List (Val W), HasIO r r.entrypoint ri ro ∧
        (∀ n, n ∉ r.children r.entrypoint → τ n = noWires n) ∧ τ ri = outWires insV ∧
        insV.length = numOuts (r.ops ri) ∧ τ ro = outWires [] ∧
        (∀ n, Inner r r.entrypoint ri ro n → Ready r τ n (insR n)) ∧
        (∀ n, Inner r r.entrypoint ri ro n → τ n = outWires (outsR n)) ∧
        (∀ n, Inner r r.entrypoint ri ro n → (outsR n).length = numOuts (r.ops n)) ∧
        (∀ n, Inner r r.entrypoint ri ro n → Runs (bodiless r) (answering Sr (Answer g S')) (.node τ n (insR n) (outsR n))) ∧
        Ready r τ ro outsV := by
    cases hτ with
    | @graph _ _ _ ri ro _ _ insR outsR q1 q2 q3 q4 q5 q6 q7 q8 q9 q10 =>
      exact ⟨ri, ro, insR, outsR, q1, q2, q3, by rw [q4, bodiless_outs], q5, fun n hn => bodiless_ready.1 (q6 n hn), q7,
        fun n hn => by rw [q8 n hn, bodiless_outs], q9, bodiless_ready.1 q10⟩
  obtain ⟨rfl, rfl⟩ := z.hasIO_entry tio
  have tin : ∀ x, Fresh r ri ro x → r.hier.parent x = some r.entrypoint → Inner r r.entrypoint ri ro x :=
    fun x hx hp => ⟨(z.treeR.child_iff _ _).2 hp, hx.2.1, hx.2.2⟩
  -- the wires with the replacement
  let σ' : Wires W := fun n => match origin r ri ro f n with
    | some x => τ x
    | none => if h.hier.parent n = some p ∧ n ∉ s.nodes then σ n else ρ' n
  have s1 : ∀ x, Fresh r ri ro x → r.hier.parent x = some r.entrypoint → σ' (f x) = τ x := by
    intro x hx hp
    simp only [σ', z.origin_new hx hp]
  have s2 : ∀ n, h.hier.parent n = some p → n ∉ s.nodes → σ' n = σ n := by
    intro n hn hk
    simp only [σ', z.origin_old (hlive n hn)]
    rw [if_pos ⟨hn, hk⟩]
  have s3 : ∀ n, origin r ri ro f n = none → ¬ (h.hier.parent n = some p ∧ n ∉ s.nodes) → σ' n = ρ' n := by
    intro n h1 h2
    simp only [σ', h1]
    rw [if_neg h2]
  have hnopar : ∀ x, Fresh r ri ro x → h.hier.parent (f x) ≠ some p := fun x hx hp => z.old (hlive _ hp) hx rfl
  have a1 : AgreeH h r s ri ro f σ σ' := by
    constructor
    · intro n hn hk
      by_cases hp : h.hier.parent n = some p
      · exact s2 n hp hk
      · rw [s3 n (z.origin_old hn) (fun hh => hp hh.1), hout n (fun hm => hp ((z.tree.child_iff _ _).1 hm)), ha.1 n hn hk]
    · intro x hx hp
      rw [s3 _ (z.origin_inner hx hp) (fun hh => hnopar x hx hh.1), ha.2 x hx hp]
  have a2 : AgreeF r ri ro f τ σ' := by
    intro x hx
    by_cases hp : r.hier.parent x = some r.entrypoint
    · exact s1 x hx hp
    · rw [a1.2 x hx hp, tout x (fun hm => hp ((z.treeR.child_iff _ _).1 hm))]
  have B : Bridge h r s ri ro f σ σ' τ insV outsV := ⟨a1.1, a2, tvals, hfeeds, houtputs, tres⟩
  have hinner : ∀ n, Inner g p i0 o0 n → (Inner h p i0 o0 n ∧ n ∉ s.nodes) ∨
      ∃ x, Fresh r ri ro x ∧ r.hier.parent x = some r.entrypoint ∧ n = f x := by
    rintro n ⟨h1, h2, h3⟩
    rcases z.mem_p.1 h1 with ⟨h1, h4⟩ | ⟨x, h5, h4, rfl⟩
    · exact .inl ⟨⟨(z.tree.child_iff _ _).2 h1, h2, h3⟩, h4⟩
    · exact .inr ⟨x, h4, h5, rfl⟩
  have hpar : ∀ n, Inner h p i0 o0 n → h.hier.parent n = some p := fun n hn => (z.tree.child_iff p n).1 hn.1
  refine ⟨σ', ?_, a1⟩
  refine .graph (ins := fun n => match origin r ri ro f n with | some x => insR x | none => ins n)
    (outs := fun n => match origin r ri ro f n with | some x => outsR x | none => outs n) hiog ?_ ?_ ?_ ?_ ?_ ?_ ?_ ?_ ?_
  · intro n hn
    rw [z.mem_p] at hn
    refine s3 n (origin_none fun x h1 h2 h3 => hn (.inr ⟨x, h2, h1, h3⟩)) fun hh => hn (.inl hh)
  · rw [s2 i0 pi n1]; exact hvals
  · rw [z.ops_old (hlive _ pi) n1]; exact hlen
  · rw [s2 o0 po n2]; exact hno
  · intro n hn
    rcases hinner n hn with ⟨hi, hk⟩ | ⟨x, hx, hp, rfl⟩
    · simp only [z.origin_old (hlive n (hpar n hi))]
      exact (z.ready_old B (hlive n (hpar n hi)) hk).1 (hready n hi)
    · simp only [z.origin_new hx hp]
      refine (z.ready_new a2 tvals (fun k a ap hf => ?_) hx).1 (tready x (tin x hx hp))
      obtain ⟨c1, c2⟩ := z.feeds_live hf
      rw [a1.1 _ c1 c2, hfeeds _ _ _ hf]
  · intro n hn
    rcases hinner n hn with ⟨hi, hk⟩ | ⟨x, hx, hp, rfl⟩
    · simp only [z.origin_old (hlive n (hpar n hi))]
      rw [s2 n (hpar n hi) hk, hval n hi]
    · simp only [z.origin_new hx hp]
      rw [s1 x hx hp, tval x (tin x hx hp)]
  · intro n hn
    rcases hinner n hn with ⟨hi, hk⟩ | ⟨x, hx, hp, rfl⟩
    · simp only [z.origin_old (hlive n (hpar n hi))]
      rw [hsize n hi, z.ops_old (hlive n (hpar n hi)) hk]
    · simp only [z.origin_new hx hp]
      rw [tsize x (tin x hx hp), z.ops_new hx]
  · intro n hn
    rcases hinner n hn with ⟨hi, hk⟩ | ⟨x, hx, hp, rfl⟩
    · simp only [z.origin_old (hlive n (hpar n hi))]
      exact (ih n hi).2 (hlive n (hpar n hi)) hk σ' a1
    · simp only [z.origin_new hx hp]
      exact z.copied hS rfl (truns x (tin x hx hp)) hx σ' a2
  · exact (z.ready_old B (hlive _ po) n2).1 hres

omit z in
theorem agree_start : AgreeH h r s i o f (noWires : Wires W) noWires := ⟨fun _ _ _ => rfl, fun _ _ _ => rfl⟩

theorem defn_kept {k : Nat} (hk : IsDefn h k) : k ∉ s.nodes := by
  obtain ⟨nm, sg, e⟩ := hk
  exact z.kept_of (by rw [e]; simp [DataflowChild])

theorem cf_kept {b : Nat} {x y : List Types.Ty} {w : List (List Types.Ty)} (hop : h.ops b = .dataflowBlock x y w) :
    b ∉ s.nodes := z.kept_of (by rw [hop]; simp [DataflowChild])

theorem exit_kept {b : Nat} {x : List Types.Ty} (hop : h.ops b = .exitBlock x) :
    b ∉ s.nodes := z.kept_of (by rw [hop]; simp [DataflowChild])

theorem not_p {n : Nat} (hb : Validate.body (h.ops n) = none) : n ≠ p := by
  rintro rfl
  have := z.removable.region
  rw [hb] at this; cases this

theorem forward (hS : Merges h r s i o f S Sr S') (hdef : ∀ k, IsDefn g k ↔ IsDefn h k) (hA : Allows h S s r Sr)
    {t : Task W} (hr : Runs h S t) : Fwd h S g S' r s i o f t := by
  induction hr with
  | @graph ρ σ P i0 o0 vals res ins outs hio hout hvals hlen hno hready hval hsize hruns hres ih =>
    intro hk ρ' ha
    by_cases hPp : P = p
    · subst hPp
      exact z.forward_p hS hA hio hout hvals hlen hno hready hval hsize hres ih ha
    · obtain ⟨pi, po⟩ := z.hasIO_host hio
      have hPl : h.live P = true := (z.tree.parent_live _ _ pi).2
      have hpar : ∀ n, Inner h P i0 o0 n → h.hier.parent n = some P := fun n hn => (z.tree.child_iff P n).1 hn.1
      have hlk : ∀ n, h.hier.parent n = some P → h.live n = true ∧ n ∉ s.nodes ∧ h.hier.parent n ≠ some p := fun n hn =>
        ⟨z.child_live hn, z.kept_child hPp hn, by rw [hn]; simpa using hPp⟩
      let σ' : Wires W := fun n => if h.hier.parent n = some P then σ n else ρ' n
      have s1 : ∀ n, h.hier.parent n = some P → σ' n = σ n := fun n hn => if_pos hn
      have s2 : ∀ n, h.hier.parent n ≠ some P → σ' n = ρ' n := fun n hn => if_neg hn
      have a1 := z.agree_step (P := P) hPl hk hPp (fun n hn => hout n fun hm => hn ((z.tree.child_iff P n).1 hm)) s2 s1 ha
      have hinner : ∀ n, Inner g P i0 o0 n → Inner h P i0 o0 n := by
        rintro n ⟨hm, b1, b2⟩
        exact ⟨(z.tree.child_iff P n).2 ((z.mem_other hPl hk hPp).1 hm), b1, b2⟩
      refine ⟨σ', ?_, a1⟩
      refine .graph (i := i0) (o := o0) (ins := ins) (outs := outs) ?_ ?_ ?_ ?_ ?_ ?_ ?_ ?_ ?_ ?_
      · obtain ⟨rest, hr⟩ := hio
        exact ⟨rest, by rw [z.replaced.host_children P hPl hk hPp]; exact hr⟩
      · intro n hn
        rw [z.mem_other hPl hk hPp] at hn
        exact s2 n hn
      · rw [s1 i0 pi]; exact hvals
      · rw [z.ops_old (hlk _ pi).1 (hlk _ pi).2.1]; exact hlen
      · rw [s1 o0 po]; exact hno
      · intro n hn
        obtain ⟨q1, q2, q3⟩ := hlk n (hpar n (hinner n hn))
        exact (z.ready_host a1.1 q1 q2 q3).1 (hready n (hinner n hn))
      · intro n hn
        rw [s1 n (hpar n (hinner n hn))]; exact hval n (hinner n hn)
      · intro n hn
        obtain ⟨q1, q2, q3⟩ := hlk n (hpar n (hinner n hn))
        rw [z.ops_old q1 q2]; exact hsize n (hinner n hn)
      · intro n hn
        obtain ⟨q1, q2, q3⟩ := hlk n (hpar n (hinner n hn))
        exact (ih n (hinner n hn)).2 q1 q2 σ' a1
      · obtain ⟨q1, q2, q3⟩ := hlk o0 po
        exact (z.ready_host a1.1 q1 q2 q3).1 hres
  | leaf hl =>
    refine ⟨fun hn => .leaf (leaf_open hl fun k args outs h1 h2 => .inr ⟨fun hh => h1 ((hdef k).1 hh), ?_⟩),
      fun hn hk ρ' ha => .leaf ((z.leaf_old hS hdef hn hk).2 hl)⟩
    rw [hS.external]; exact h2
  | const hop =>
    exact ⟨fun hn => .const ((bodiless_iff (by simp) (by simp)).2 hop), fun hn hk ρ' ha => .const ((z.ops_old hn hk).trans hop)⟩
  | dfg hop hr ih =>
    refine ⟨fun hn => (no_graph (z.removable.leaf _ hn) hr).elim, fun hn hk ρ' ha => ?_⟩
    obtain ⟨σ', r', _⟩ := ih hk ρ' ha
    exact .dfg ((z.ops_old hn hk).trans hop) r'
  | @cond ρ σ n c tag rows other ots row elems rst outs hop hc hrow hlen hr ih =>
    refine ⟨fun hn => ?_, fun hn hk ρ' ha => ?_⟩
    · rw [z.removable.leaf _ hn] at hc; simp at hc
    · have hcp : h.hier.parent c = some n := (z.tree.child_iff n c).1 (List.mem_of_getElem? hc)
      have hnp : n ≠ p := z.not_p (by rw [hop]; rfl)
      obtain ⟨σ', r', _⟩ := ih (z.kept_child hnp hcp) ρ' ha
      refine .cond ((z.ops_old hn hk).trans hop) ?_ hrow hlen r'
      rw [z.replaced.host_children n hn hk hnp]; exact hc
  | tailLoop hop hr ih =>
    exact ⟨fun hn => (no_loop (z.removable.leaf _ hn) hr).elim, fun hn hk ρ' ha =>
      .tailLoop ((z.ops_old hn hk).trans hop) (ih hn hk ρ' ha)⟩
  | again hop hlen hr hr2 ih ih2 =>
    intro hn hk ρ' ha
    obtain ⟨σ', r', _⟩ := ih hk ρ' ha
    exact .again ((z.ops_old hn hk).trans hop) hlen r' (ih2 hn hk ρ' ha)
  | done hop hlen hr ih =>
    intro hn hk ρ' ha
    obtain ⟨σ', r', _⟩ := ih hk ρ' ha
    exact .done ((z.ops_old hn hk).trans hop) hlen r'
  | @cfg ρ n entry rst sg ins outs hop hc hr ih =>
    refine ⟨fun hn => ?_, fun hn hk ρ' ha => ?_⟩
    · rw [z.removable.leaf _ hn] at hc; cases hc
    · have hcp : h.hier.parent entry = some n := (z.tree.child_iff n entry).1 (by change entry ∈ h.children n; rw [hc]; simp)
      have hnp : n ≠ p := z.not_p (by rw [hop]; rfl)
      refine .cfg ((z.ops_old hn hk).trans hop) (rest := rst) ?_ (ih (z.child_live hcp) ρ' ha)
      rw [z.replaced.host_children n hn hk hnp]; exact hc
  | @jump ρ σ b tag x other y w rows ww row ins elems others outs l hop hrow hlen hl hsrc hsp hdst hr hr2 ih ih2 =>
    intro hb ρ' ha
    have hk := z.cf_kept hop
    have hk2 := z.cf_kept hdst
    obtain ⟨σ', r', a1⟩ := ih hk ρ' ha
    have hdl := (z.live_link hl).2
    exact .jump ((z.ops_old hb hk).trans hop) hrow hlen (z.link_old hl (by rw [hsrc]; exact hk) hk2) hsrc hsp
      ((z.ops_old hdl hk2).trans hdst) r' (ih2 hdl σ' a1)
  | @exit ρ σ b tag x other ots rows row ins elems others l hop hrow hlen hl hsrc hsp hdst hr ih =>
    intro hb ρ' ha
    have hk := z.cf_kept hop
    have hk2 := z.exit_kept hdst
    obtain ⟨σ', r', a1⟩ := ih hk ρ' ha
    have hdl := (z.live_link hl).2
    exact .exit ((z.ops_old hb hk).trans hop) hrow hlen (z.link_old hl (by rw [hsrc]; exact hk) hk2) hsrc hsp
      ((z.ops_old hdl hk2).trans hdst) r'
  | @call ρ σ n k ins args outs hc hf hlen hr ih =>
    obtain ⟨σ', r', _⟩ := ih (z.defn_kept hf) noWires agree_start
    refine ⟨fun hn => .leaf (.external (bodiless_calls.2 hc) (bodiless_defn _) (by rw [bodiless_outs]; exact hlen)
      (.inl ⟨(hdef k).2 hf, σ', r'⟩)), fun hn hk ρ' ha => ?_⟩
    exact .call ((z.calls_old hn hk).2 hc) ((hdef k).2 hf) (by rw [z.ops_old hn hk]; exact hlen) r'

theorem returns_of (hS : Merges h r s i o f S Sr S') (hdef : ∀ k, IsDefn g k ↔ IsDefn h k) (hA : Allows h S s r Sr)
    {k : Nat} {args outs : List (Val W)} (hr : Returns h S k args outs) : Returns g S' k args outs := by
  obtain ⟨hf, σ, hr⟩ := hr
  obtain ⟨σ', r', _⟩ := z.forward hS hdef hA hr (z.defn_kept hf) noWires agree_start
  exact ⟨(hdef k).2 hf, σ', r'⟩

end SwapAt
end Verif.Patch
