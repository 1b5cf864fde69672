import Verif.Dataflow.AnalysisLemmas
import Verif.Validate.Lemmas
import Verif.Graph.SerializeProps
import Mathlib.Tactic.Common

/-!
# Lemmas for the soundness of the dataflow analysis
-/
namespace Verif.Dataflow

open Verif.Graph Verif.Ops Verif.Passes Verif.Validate PV

variable {Meta V E W : Type}

/-! ## Ports -/

theorem numIns_eq {op : Ops.Op} (h : op.tagOk = true) : numIns op = (sigIns op).length := by
  cases op with
  | tag k vs =>
    have hk : k < vs.length := by simpa [Op.tagOk] using h
    simp [numIns, sigIns, Op.ports, Op.dataflowSignature, hk, List.filter_map, Function.comp_def,
      Kind.isValue, List.filter_cons]
  | _ => simp [numIns, sigIns, Op.ports, Op.dataflowSignature, List.filter_map, Function.comp_def,
      Kind.isValue, List.filter_cons]

theorem numOuts_eq {op : Ops.Op} (h : op.tagOk = true) : numOuts op = (sigOuts op).length := by
  cases op with
  | tag k vs =>
    have hk : k < vs.length := by simpa [Op.tagOk] using h
    simp [numOuts, sigOuts, Op.ports, Op.dataflowSignature, hk, List.filter_map, Function.comp_def,
      Kind.isValue, List.filter_cons]
  | _ => simp [numOuts, sigOuts, Op.ports, Op.dataflowSignature, List.filter_map, Function.comp_def,
      Kind.isValue, List.filter_cons]

theorem in_value {op : Ops.Op} (h : op.tagOk = true) {p : Nat} (hp : p < (sigIns op).length) :
    ∃ t, (op.ports .incoming)[p]? = some (.value t) := by
  obtain ⟨s, hs, hports, -⟩ := ports_eq op .incoming h
  have hl : (sigIns op) = (sigRow (s.getD ⟨[], []⟩) .incoming) := by
    unfold sigIns; rw [hs]; cases s <;> simp [sigRow]
  rw [hports, ← hl, List.append_assoc, List.getElem?_append_left (by simpa using hp)]
  exact ⟨(sigIns op)[p], by simp [hp]⟩

theorem value_out {op : Ops.Op} (h : op.tagOk = true) {p : Nat} {t : Types.Ty}
    (hp : (op.ports .outgoing)[p]? = some (.value t)) : p < (sigOuts op).length := by
  obtain ⟨s, hs, hports, ho⟩ := ports_eq op .outgoing h
  have hl : (sigOuts op) = (sigRow (s.getD ⟨[], []⟩) .outgoing) := by
    unfold sigOuts; rw [hs]; cases s <;> simp [sigRow]
  rw [hports, ← hl] at hp
  by_contra hno
  rw [List.append_assoc, List.getElem?_append_right (by simpa using hno)] at hp
  have hm := List.mem_of_getElem? hp
  rcases List.mem_append.1 hm with hm | hm
  · have := static_isStatic op .outgoing _ (by simpa using hm)
    simp [Kind.isStatic] at this
  · obtain ⟨hn, he⟩ := List.mem_replicate.1 hm
    obtain ⟨k, hk⟩ := Option.isSome_iff_exists.1 (ho hn)
    rw [hk] at he
    have := other_isOther op .outgoing k hk
    simp only [Option.getD_some] at he
    rw [← he] at this
    simp [Kind.isOther] at this

/-! ## Rows -/

theorem forall2_of_getElem {α β : Type} {R : α → β → Prop} {xs : List α} {ys : List β}
    (hl : xs.length = ys.length) (h : ∀ (i : Nat) x y, xs[i]? = some x → ys[i]? = some y → R x y) :
    List.Forall₂ R xs ys := by
  induction xs generalizing ys with
  | nil => cases ys with
    | nil => exact .nil
    | cons => simp at hl
  | cons x xs ih => cases ys with
    | nil => simp at hl
    | cons y ys =>
      refine .cons (h 0 x y rfl rfl) (ih (by simpa using hl) fun i a b ha hb => h (i + 1) a b ?_ ?_)
      · simpa using ha
      · simpa using hb

theorem getElem_forall2 {α β : Type} {R : α → β → Prop} {xs : List α} {ys : List β}
    (h : List.Forall₂ R xs ys) {i : Nat} {y : β} (hy : ys[i]? = some y) :
    ∃ x, xs[i]? = some x ∧ R x y := by
  induction h generalizing i with
  | nil => simp at hy
  | cons hr _ ih =>
    cases i with
    | zero => simp at hy; subst hy; exact ⟨_, rfl, hr⟩
    | succ i => simpa using ih (by simpa using hy)

theorem not_rowContainsBottom {vd : V → W → Prop} {row : List (Abs V)} {xs : List (Val W)}
    (h : List.Forall₂ (Describes vd) row xs) : rowContainsBottom row = false := by
  have key : ∀ a : Abs V, ∀ c : Val W, Describes vd a c → a.containsBottom = false := by
    intro a
    induction a using induct with
    | hbot => intro c hc; simp [Describes] at hc
    | htop => intro c _; rfl
    | hfunc n x => intro c _; rfl
    | hval v => intro c _; rfl
    | hsum rows ih =>
      intro c hc
      simp only [Describes] at hc
      obtain ⟨tag, ys, rfl, hc⟩ := hc
      rw [describesRows_iff] at hc
      obtain ⟨row, hm, hf⟩ := hc
      have hrow : rowContainsBottom row = false := by
        have hx := ih tag row hm
        clear ih hm
        induction hf with
        | nil => rfl
        | cons hp _ ih2 =>
          simp only [rowContainsBottom, Bool.or_eq_false_iff]
          exact ⟨hx _ (by simp) _ hp, ih2 fun x hm => hx x (by simp [hm])⟩
      simp only [containsBottom]
      clear hf ih
      induction rows with
      | nil => simp at hm
      | cons e rows ih =>
        obtain ⟨k, r⟩ := e
        simp only [rowsContainBottom, Bool.and_eq_false_iff]
        rcases List.mem_cons.1 hm with hm | hm
        · simp only [Prod.mk.injEq] at hm
          obtain ⟨_, rfl⟩ := hm
          exact .inl hrow
        · exact .inr (ih hm)
  induction h with
  | nil => rfl
  | cons hp _ ih =>
    simp only [rowContainsBottom, Bool.or_eq_false_iff]
    exact ⟨key _ _ hp, ih⟩

/-! ## From facts to described values -/

/-- What the soundness proof starts from. -/
structure Done (C : Validate.Context) (vle : V → V → Prop) [AbsVal V] (vd : V → W → Prop)
    (good : V → Prop) (h : Hugr Ops.Op Meta)
    (K : DFContext V E) (proto : List (Nat × Nat × Abs V)) (s : AState V) : Prop where
  tree : IsTree h
  valid : Valid C h
  desc : ∀ a b w, vle a b → vd a w → vd b w
  wf : StateWF h s
  good : StateAll (AllLeaves good) h s
  closed : Closed vle h (derive h K proto s) s

section Facts
variable {C : Validate.Context} {vle : V → V → Prop} [AbsVal V] {vd : V → W → Prop} {good : V → Prop}
  {Ann : Nat → Prop} {Seen : Nat → List (Abs V) → Prop}
  {h : Hugr Ops.Op Meta} {K : DFContext V E} {proto : List (Nat × Nat × Abs V)} {s : AState V}

theorem mem_derive (ht : IsTree h) {n : Nat} (hn : h.live n = true) {f : Fact V}
    (hf : f ∈ wireFacts h s n ∨ f ∈ rowFacts h s n ∨ f ∈ leafFacts h K s n ∨ f ∈ dfgFacts h s n ∨
      f ∈ loopFacts h s n ∨ f ∈ condFacts h s n ∨ f ∈ cfgFacts h s n ∨ f ∈ callFacts h s n ∨
      f ∈ indirectFacts h s n) : f ∈ derive h K proto s := by
  simp only [derive, List.mem_append, List.mem_flatMap]
  refine .inl (.inr ⟨n, (Graph.mem_nodes ht n).2 hn, ?_⟩)
  tauto

theorem mem_derive_block {g b : Nat} (hb : (g, b) ∈ s.blocks) {f : Fact V}
    (hf : f ∈ blockFacts h s g b) : f ∈ derive h K proto s := by
  simp only [derive, List.mem_append, List.mem_flatMap]
  exact .inr ⟨(g, b), hb, hf⟩

/-- The outputs `outs` of `n` are described. -/
def DescBy (vd : V → W → Prop) (s : AState V) (n : Nat) (outs : List (Val W)) : Prop :=
  ∀ p v, outs[p]? = some v → Describes vd (s.outOf n p) v

theorem descBy_of_facts (d : Done C vle vd good h K proto s) {n : Nat} {vs : List (Abs V)}
    {xs : List (Val W)} (hm : ∀ f ∈ outFacts n vs, f ∈ derive h K proto s)
    (hd : List.Forall₂ (Describes vd) vs xs) : DescBy vd s n xs := by
  intro p v hp
  obtain ⟨a, ha, had⟩ := getElem_forall2 hd hp
  exact describes_mono d.desc _ _ _ (d.closed.out n p a (hm _ (mem_outFacts.2 ⟨p, a, ha, rfl⟩))) had

theorem inVals_getElem {n p : Nat} {x : Abs V} (hx : (inVals h s n)[p]? = some x) :
    x = s.inOf n p ∧ p < (sigIns (h.ops n)).length := by
  simp only [inVals, List.getElem?_map] at hx
  by_cases hp : p < (sigIns (h.ops n)).length
  · simp [hp] at hx; exact ⟨hx.symm, hp⟩
  · simp [hp] at hx

theorem row_of_inVals (d : Done C vle vd good h K proto s) {n : Nat} (hn : h.live n = true)
    {xs : List (Val W)} (hd : List.Forall₂ (Describes vd) (inVals h s n) xs) :
    List.Forall₂ (Describes vd) (s.rowOf h n) xs := by
  have hl := hd.length_eq
  simp only [inVals, List.length_map, List.length_range] at hl
  refine forall2_of_getElem (by rw [d.wf.len, hl]) fun i x y hx hy => ?_
  obtain ⟨a, ha, had⟩ := getElem_forall2 hd hy
  obtain ⟨rfl, hi⟩ := inVals_getElem ha
  have hfact : Fact.row n ((newRow (sigIns (h.ops n)).length).set i (s.inOf n i)) ∈
      derive h K proto s :=
    mem_derive d.tree hn (.inr (.inl (by
      simp only [rowFacts, List.mem_map, List.mem_range]
      exact ⟨i, hi, rfl⟩)))
  obtain ⟨b, hb, hle⟩ := getElem_forall2 (d.closed.row _ _ hfact) hx
  rw [List.getElem?_set_self (by simpa [newRow] using hi)] at hb
  simp only [Option.some.injEq] at hb
  subst hb
  exact describes_mono d.desc _ _ _ hle had

theorem variant_described (d : Done C vle vd good h K proto s) {n tag : Nat} {row : List (Abs V)}
    (hw : ∀ x ∈ row, WF x) {elems rest : List (Val W)}
    (hd : List.Forall₂ (Describes vd) row (.sum tag elems :: rest))
    (hm : ∀ f ∈ variantFacts n (unpackFirst tag elems.length row), f ∈ derive h K proto s) :
    DescBy vd s n (elems ++ rest) := by
  cases hd with
  | cons hx hr =>
    obtain ⟨vals, hv, hf⟩ := C44_variant_values vd _ (hw _ (by simp)) tag elems hx
    simp only [unpackFirst, hv, variantFacts] at hm
    exact descBy_of_facts d hm (List.rel_append hf hr)

theorem supports_described {n tag : Nat} {elems rest : List (Val W)} (hs : StateWF h s)
    (hd : List.Forall₂ (Describes vd) (inVals h s n) (.sum tag elems :: rest)) :
    (s.inOf n 0).supportsTag tag = true := by
  obtain ⟨a, ha, had⟩ := getElem_forall2 hd (i := 0) rfl
  obtain ⟨rfl, _⟩ := inVals_getElem ha
  exact C44_supports_tag vd _ (hs.inn n 0) tag elems had

theorem getIo_of {p i o : Nat} (hio : HasIO h p i o) (hp : (body (h.ops p)).isSome = true) :
    getIo h p = some (i, o) := by
  obtain ⟨rest, hr⟩ := hio
  have ht : OpTag.isSuperset .dataflowParent (h.ops p).opTag = true := by
    cases hop : h.ops p <;> rw [hop] at hp <;> simp [body] at hp <;> simp only [Op.opTag] <;> decide +kernel
  simp [getIo, ht, hr]

/-! ## The invariant of activations -/

/-- Values on wires are described where they arrive; where they start, unless they are inputs of the
region that the execution was started with; and the regions that are entered are known to be
reachable. -/
structure Inv (vd : V → W → Prop) (Ann : Nat → Prop) (h : Hugr Ops.Op Meta) (s : AState V) (a : Activation W) :
    Prop where
  arrive : ∀ l ∈ h.links, ∀ v, a.wires l.src l.srcPort = some v →
    l.dstPort < (sigIns (h.ops l.dst)).length → Describes vd (s.inOf l.dst l.dstPort) v
  leave : ∀ n p v, a.wires n p = some v → Describes vd (s.outOf n p) v ∨
    (Ann a.root ∧ IsRegion h a.root ∧ ∃ o, HasIO h a.root n o)
  live : ∀ p, a.entered p → h.live p = true
  cases : ∀ p sig, a.entered p → p ≠ a.root → h.ops p = .case sig →
    ∃ c, h.hier.parent p = some c ∧ (c, p) ∈ s.cases
  blocks : ∀ p x y z, a.entered p → p ≠ a.root → h.ops p = .dataflowBlock x y z →
    ∃ g, h.hier.parent p = some g ∧ (g, p) ∈ s.blocks

theorem wire_described (d : Done C vle vd good h K proto s) {l : Link} (hl : l ∈ h.links)
    (hp : l.dstPort < (sigIns (h.ops l.dst)).length) :
    Le vle (s.outOf l.src l.srcPort) (s.inOf l.dst l.dstPort) := by
  obtain ⟨kind, hk1, hk2, p, hp1, hor⟩ := d.valid.kinds l hl
  have hlive : h.live l.dst = true := by
    rcases hor with hor | ⟨q, _, hq, _⟩
    · exact (d.tree.parent_live _ _ hor).1
    · exact (d.tree.parent_live _ _ hq).1
  obtain ⟨t, ht⟩ := in_value (d.valid.tags _ hlive) hp
  have hdeg := d.valid.inDegree l.dst l.dstPort _ hlive ht
  simp only [InDegreeOk] at hdeg
  obtain ⟨l', hl'⟩ := List.length_eq_one_iff.1 hdeg
  have hmem : l ∈ linksTo h l.dst l.dstPort := by simp [linksTo, hl]
  rw [hl', List.mem_singleton] at hmem
  subst hmem
  have hlo : h.linkedOutputs l.dst l.dstPort = [(l.src, l.srcPort)] := by
    unfold linksTo at hl'
    simp only [Hugr.linkedOutputs, hl', List.map_cons, List.map_nil]
  refine d.closed.inn _ _ _ (mem_derive d.tree hlive (.inl ?_))
  simp only [wireFacts, List.mem_flatMap, List.mem_range]
  exact ⟨l.dstPort, hp, by rw [hlo]; simp⟩

theorem inv_put (d : Done C vle vd good h K proto s) {a : Activation W} (ha : Inv vd Ann h s a) {n : Nat}
    {outs : List (Val W)} (ho : DescBy vd s n outs) : Inv vd Ann h s (a.put n outs) := by
  refine ⟨fun l hl v hv hp => ?_, fun m p v hv => ?_, ha.live, ha.cases, ha.blocks⟩
  · simp only [Activation.put, Wires.put] at hv
    split at hv
    · rename_i hm
      refine describes_mono d.desc _ _ _ (wire_described d hl hp) ?_
      rw [hm]; exact ho _ _ hv
    · exact ha.arrive l hl v hv hp
  · simp only [Activation.put, Wires.put] at hv
    split at hv
    · rename_i hm; subst hm
      exact .inl (ho _ _ hv)
    · exact ha.leave m p v hv

theorem inv_enter (d : Done C vle vd good h K proto s) {a : Activation W} (ha : Inv vd Ann h s a) {p i : Nat}
    {vals : List (Val W)} (ho : DescBy vd s i vals) (hlive : h.live p = true)
    (hc : ∀ sig, p ≠ a.root → h.ops p = .case sig →
      ∃ c, h.hier.parent p = some c ∧ (c, p) ∈ s.cases)
    (hb : ∀ x y z, p ≠ a.root → h.ops p = .dataflowBlock x y z →
      ∃ g, h.hier.parent p = some g ∧ (g, p) ∈ s.blocks) : Inv vd Ann h s (a.enter p i vals) := by
  have h1 := inv_put d ha ho
  refine ⟨h1.arrive, h1.leave, fun q hq => ?_, fun q sig hq hr hop => ?_,
    fun q x y z hq hr hop => ?_⟩
  · rcases hq with rfl | hq
    · exact hlive
    · exact ha.live q hq
  · rcases hq with rfl | hq
    · exact hc sig hr hop
    · exact ha.cases q sig hq hr hop
  · rcases hq with rfl | hq
    · exact hb x y z hr hop
    · exact ha.blocks q x y z hq hr hop

theorem ready_described (d : Done C vle vd good h K proto s) {a : Activation W} (ha : Inv vd Ann h s a)
    {n : Nat} (hn : h.live n = true) {ins : List (Val W)} (hr : Ready h a.wires n ins) :
    List.Forall₂ (Describes vd) (inVals h s n) ins := by
  obtain ⟨hl, hr⟩ := hr
  rw [numIns_eq (d.valid.tags n hn)] at hl
  refine forall2_of_getElem (by simp [inVals, hl]) fun i x y hx hy => ?_
  obtain ⟨rfl, hi⟩ := inVals_getElem hx
  obtain ⟨l, hlm, rfl, rfl, hw⟩ := hr i y hy
  exact ha.arrive l hlm y hw hi

/-! ## Leaf operations -/

theorem newVariant_described {tag : Nat} {row : List (Abs V)} {xs : List (Val W)}
    (hd : List.Forall₂ (Describes vd) row xs) : Describes vd (newVariant tag row) (.sum tag xs) := by
  simp only [newVariant, Describes]
  exact ⟨tag, xs, rfl, by rw [describesRows_iff]; exact ⟨row, by simp, hd⟩⟩

mutual
theorem const_described {S : Sem W E} (n : Nat) (path : List Nat) :
    ∀ c : CVal E, (∀ q e v, LeafAt c q e → K.load n (q ++ path) e = some v → vd v (S.leaf e)) →
      Describes vd (partialFromConst K.load n path c) (S.value c)
  | .leaf e, hload => by
    simp only [partialFromConst, Sem.value]
    cases hl : K.load n path e with
    | none => simp [Describes]
    | some v => simp only [Describes]; exact ⟨_, rfl, hload [] e v (.leaf e) hl⟩
  | .sum tag vals, hload => by
    simp only [partialFromConst, Sem.value]
    refine newVariant_described (consts_described n path 0 vals fun k c hk q e v hl hv => ?_)
    exact hload (q ++ [k]) e v (.sum hk hl) (by simpa using hv)
theorem consts_described {S : Sem W E} (n : Nat) (path : List Nat) :
    ∀ (i : Nat) (cs : List (CVal E)), (∀ k c, cs[k]? = some c → ∀ q e v, LeafAt c q e →
        K.load n (q ++ (i + k) :: path) e = some v → vd v (S.leaf e)) →
      List.Forall₂ (Describes vd) (partialsFromConst K.load n path i cs) (S.values cs)
  | _, [], _ => by simp [partialsFromConst, Sem.values]
  | i, c :: cs, hload => by
    simp only [partialsFromConst, Sem.values]
    refine .cons (const_described n (i :: path) c fun q e v hl hv => ?_)
      (consts_described n path (i + 1) cs fun k c' hk q e v hl hv => ?_)
    · exact hload 0 c rfl q e v hl (by simpa using hv)
    · refine hload (k + 1) c' (by simpa using hk) q e v hl ?_
      rwa [show i + (k + 1) = i + 1 + k by omega]
end

theorem variantFacts_described (d : Done C vle vd good h K proto s) {n : Nat} {r : Variant V Nat Unit}
    (hm : ∀ f ∈ variantFacts n r, f ∈ derive h K proto s) {outs : List (Val W)}
    (hd : ∀ vs, r = .some vs → List.Forall₂ (Describes vd) vs outs)
    (hne : r ≠ .none) : DescBy vd s n outs := by
  cases r with
  | none => exact absurd rfl hne
  | panic => exact absurd (hm _ (by simp [variantFacts])) d.closed.panic
  | some vs => exact descBy_of_facts d hm (hd vs rfl)

theorem singleSource_of {l : Link} (hl : l ∈ h.links) {m : Nat}
    (hs : singleSource h l.dst l.dstPort = some m) : m = l.src := by
  have hmem : (l.src, l.srcPort) ∈ h.linkedOutputs l.dst l.dstPort := by
    simp only [Hugr.linkedOutputs, List.mem_map, List.mem_filter]
    exact ⟨l, ⟨hl, by simp⟩, rfl⟩
  unfold singleSource at hs
  split at hs
  · rename_i m' q heq
    rw [heq] at hmem
    simp at hs hmem
    rw [← hs, hmem.1]
  · simp at hs

theorem tops_described (d : Done C vle vd good h K proto s) {n : Nat} {outs : List (Val W)} {k : Nat}
    (hm : ∀ f ∈ outFacts n (List.replicate k (top : Abs V)), f ∈ derive h K proto s)
    (hl : outs.length = k) : DescBy vd s n outs := by
  refine descBy_of_facts d hm (forall2_of_getElem (by simp [hl]) fun i x y hx _ => ?_)
  rw [(List.mem_replicate.1 (List.mem_of_getElem? hx)).2]
  simp [Describes]

/-- The value of an indirect call whose target is not known. -/
theorem unknown_described (d : Done C vle vd good h K proto s) {n : Nat} (hn : h.live n = true)
    {sig : Types.Signature} (hop : h.ops n = .callIndirect sig)
    (hu : unknownFunction (s.inOf n 0) = true) {outs : List (Val W)}
    (hl : outs.length = numOuts (h.ops n)) : DescBy vd s n outs := by
  have hk : numOuts (h.ops n) = sig.output.length := by
    rw [numOuts_eq (d.valid.tags n hn), hop]; rfl
  refine tops_described d (k := sig.output.length) (fun f hf => ?_) (by rw [hl, hk])
  refine mem_derive d.tree hn ?_
  refine .inr (.inr (.inr (.inr (.inr (.inr (.inr (.inr ?_)))))))
  simp only [indirectFacts, hop]
  rw [if_pos hu]
  exact List.mem_append.2 (.inr hf)

theorem leaf_described (d : Done C vle vd good h K proto s) {S : Sem W E} (hS : FaithfulOn Seen vd good h K S)
    (hseen : RowsSeen Seen h s)
    {calls : List (PreCall V)} (hcov : Covered h calls s) {n : Nat} (hn : h.live n = true)
    {ins outs : List (Val W)} (hd : List.Forall₂ (Describes vd) (inVals h s n) ins)
    (hleaf : Leaf h S n ins outs) : DescBy vd s n outs := by
  have hrow := row_of_inVals d hn hd
  have hfacts : isLeafOp (h.ops n) = true → ∀ f ∈ variantFacts n (propagateLeafOp h K n (s.rowOf h n)
      (sigOuts (h.ops n)).length), f ∈ derive h K proto s := by
    intro hop f hf
    refine mem_derive d.tree hn (.inr (.inr (.inl ?_)))
    simp only [leafFacts, hop, if_true]; exact hf
  cases hleaf with
  | @makeTuple targs sig _ hop =>
    refine variantFacts_described d (hfacts (by rw [hop]; rfl)) ?_ ?_
    · intro vs hvs
      simp [propagateLeafOp, hop, isMakeTuple] at hvs
      subst hvs
      exact .cons (newVariant_described hrow) .nil
    · simp [propagateLeafOp, hop, isMakeTuple]
  | @unpackTuple targs sig _ hop hlen =>
    cases hrow' : s.rowOf h n with
    | nil => rw [hrow'] at hrow; cases hrow
    | cons x rest =>
      rw [hrow'] at hrow
      obtain ⟨_, _, _, hx, hr, -, rfl⟩ : ∃ (_ _ _ : Unit), Describes vd x (.sum 0 outs) ∧
          List.Forall₂ (Describes vd) rest [] ∧ True ∧ rest = [] := by
        cases hrow with
        | cons hx hr => cases hr; exact ⟨(), (), (), hx, .nil, trivial, rfl⟩
      have hwx : WF x := d.wf.row n x (by rw [hrow']; simp)
      obtain ⟨row, hv, hf⟩ := C44_variant_values vd x hwx 0 outs hx
      have hp : propagateLeafOp h K n (s.rowOf h n) (sigOuts (h.ops n)).length = .some row := by
        rw [hrow']
        simp only [propagateLeafOp, hop, isMakeTuple, isUnpackTuple, unpackTuple]
        simp [sigOuts, Op.dataflowSignature, ← hlen, hv]
      refine variantFacts_described d (hfacts (by rw [hop]; rfl)) ?_ ?_
      · intro vs hvs
        rw [hp] at hvs
        simp only [Variant.some.injEq] at hvs
        subst hvs; exact hf
      · rw [hp]; simp
  | @tag t variants _ hop =>
    have htag := d.valid.tags n hn
    rw [hop] at htag
    have hk : t < variants.length := by simpa [Op.tagOk] using htag
    have hleafop : isLeafOp (h.ops n) = true := by
      rw [hop]
      simp [isLeafOp, Op.dataflowSignature, hk, flags, OpTag.isEmpty]
    refine variantFacts_described d (hfacts hleafop) ?_ ?_
    · intro vs hvs
      simp [propagateLeafOp, hop, isMakeTuple, isUnpackTuple] at hvs
      subst hvs
      exact .cons (newVariant_described hrow) .nil
    · simp [propagateLeafOp, hop, isMakeTuple, isUnpackTuple]
  | @loadConstant t t' l hop hl hdst hport hsrc =>
    have hempty : (s.rowOf h n).isEmpty = true := by
      cases hr : s.rowOf h n with
      | nil => rfl
      | cons x r => rw [hr] at hrow; cases hrow
    have hp : propagateLeafOp h K n (s.rowOf h n) (sigOuts (h.ops n)).length = loadConstant h K n := by
      simp [propagateLeafOp, hop, isMakeTuple, isUnpackTuple, hempty]
    refine variantFacts_described d (hfacts (by rw [hop]; rfl)) ?_ ?_
    · intro vs hvs
      rw [hp] at hvs
      unfold loadConstant at hvs
      split at hvs
      · simp at hvs
      · rename_i c hc
        rw [← hdst, ← hport] at hc
        have := singleSource_of hl hc
        subst this
        rw [hsrc] at hvs
        simp only [Variant.some.injEq] at hvs
        subst hvs
        rw [hS.constant]
        refine .cons (const_described _ _ _ fun q e v hl' hv => ?_) .nil
        exact (hS.load n l.src q e v ⟨_, l, hop, hl, hdst, hport, rfl⟩ hl' (by simpa using hv)).2
    · rw [hp]
      unfold loadConstant
      split
      · simp
      · split <;> simp
  | @loadFunction sig targs inst l hop hl hdst hport =>
    have hempty : (s.rowOf h n).isEmpty = true := by
      cases hr : s.rowOf h n with
      | nil => rfl
      | cons x r => rw [hr] at hrow; cases hrow
    have hp : propagateLeafOp h K n (s.rowOf h n) (sigOuts (h.ops n)).length = loadFunction h n := by
      simp [propagateLeafOp, hop, isMakeTuple, isUnpackTuple, hempty]
    refine variantFacts_described d (hfacts (by rw [hop]; rfl)) ?_ ?_
    · intro vs hvs
      rw [hp] at hvs
      unfold loadFunction at hvs
      split at hvs
      · simp at hvs
      · rename_i c hc
        rw [← hdst, ← hport] at hc
        have := singleSource_of hl hc
        subst this
        simp only [Variant.some.injEq] at hvs
        subst hvs
        exact .cons (by simp [Describes]) .nil
    · rw [hp]
      unfold loadFunction
      split <;> simp
  | @ext x name targs sig _ _ hop hno hlen hext =>
    have hmt : isMakeTuple (h.ops n) = false := by
      rw [hop]
      simp only [isMakeTuple, Bool.and_eq_false_iff, beq_eq_false_iff_ne]
      by_contra hc
      simp only [not_or, not_not] at hc
      exact hno ⟨hc.1, .inl hc.2⟩
    have hut : isUnpackTuple (h.ops n) = false := by
      rw [hop]
      simp only [isUnpackTuple, Bool.and_eq_false_iff, beq_eq_false_iff_ne]
      by_contra hc
      simp only [not_or, not_not] at hc
      exact hno ⟨hc.1, .inr hc.2⟩
    have hp : propagateLeafOp h K n (s.rowOf h n) (sigOuts (h.ops n)).length =
        .some ((List.range sig.output.length).map (K.interp n (s.rowOf h n))) := by
      have hb := not_rowContainsBottom hrow
      have hso : sigOuts (h.ops n) = sig.output := by rw [hop]; rfl
      rw [propagateLeafOp, hmt, hut, hso]
      simp [hop, hb]
    refine variantFacts_described d (hfacts (by rw [hop]; rfl)) ?_ ?_
    · intro vs hvs
      rw [hp] at hvs
      simp only [Variant.some.injEq] at hvs
      subst hvs
      refine forall2_of_getElem (by simp [hlen]) fun i a b ha hb => ?_
      simp only [List.getElem?_map, Option.map_eq_some_iff] at ha
      obtain ⟨j, hj, rfl⟩ := ha
      have hji : j = i := by
        obtain ⟨hi, hj⟩ := List.getElem?_eq_some_iff.1 hj
        simpa using hj.symm
      subst hji
      exact hS.interp n _ _ _ (hseen n ⟨hn, _, _, _, _, hop⟩ (not_rowContainsBottom hrow)) (d.good.row n) hrow hext _ _ hb
    · rw [hp]; simp
  | @external _ _ args f hcall hno hlen =>
    cases hcall with
    | @direct sig targs inst _ l hop hl hdst hport =>
      obtain ⟨f, hf, hall⟩ := hcov.call n _ _ _ hn hop
      rw [hall l hl hdst hport] at hno
      exact absurd hf hno
    | @indirect sig _ _ hop =>
      obtain ⟨a, ha, had⟩ := getElem_forall2 hd (i := 0) rfl
      obtain ⟨rfl, _⟩ := inVals_getElem ha
      refine unknown_described d hn hop ?_ hlen
      cases hin : s.inOf n 0 with
      | top => rfl
      | func g x =>
        rw [hin] at had
        simp only [Describes, Conc.func.injEq] at had
        exact absurd (hcov.found n _ f hn hop (by rw [hin, had.1])) hno
      | bottom => rw [hin] at had; simp [Describes] at had
      | value v => rw [hin] at had; simp [Describes] at had
      | psum r => rw [hin] at had; simp [Describes] at had
  | @unknown sig w args _ hop hlen =>
    obtain ⟨a, ha, had⟩ := getElem_forall2 hd (i := 0) rfl
    obtain ⟨rfl, _⟩ := inVals_getElem ha
    refine unknown_described d hn hop ?_ hlen
    cases hin : s.inOf n 0 with
    | top => rfl
    | value v => rfl
    | func g x => rw [hin] at had; simp [Describes] at had
    | bottom => rw [hin] at had; simp [Describes] at had
    | psum r => rw [hin] at had; simp [Describes] at had

end Facts

end Verif.Dataflow
