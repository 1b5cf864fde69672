import Verif.Patch.InlineCallSpec
import Verif.Patch.CopyLemmas
import Verif.Graph.InsertLemmas
import Verif.Ops.SubstProps

/-!
# Inlining a call gives the specified Hugr
-/
namespace Verif.Patch

open Verif.Graph Verif.Ops Verif.Validate Verif.Passes

variable {Meta : Type} {C : Context} {h : Hugr Ops.Op Meta}

theorem call_static (sig : Types.PolyFunc) (targs : List Types.Term) (inst : Types.Signature) :
    (Op.call sig targs inst).staticPort .incoming = .ok (some inst.input.length) := rfl

theorem call_order (sig : Types.PolyFunc) (targs : List Types.Term) (inst : Types.Signature) :
    (Op.call sig targs inst).otherPort .incoming = .ok (some (inst.input.length + 1)) := rfl

theorem dfg_order (sig : Types.Signature) :
    (Op.dfg sig).otherPort .incoming = .ok (some sig.input.length) := rfl

theorem substTypes_length {env : Types.Env} {σ : List Types.Term} :
    ∀ {xs ys : List Types.Ty}, Types.substTypes env σ xs = some ys → xs.length = ys.length
  | [], ys, hx => by simp only [Types.substTypes, Option.some.injEq] at hx; subst hx; rfl
  | x :: xs, ys, hx => by
    simp only [Types.substTypes] at hx
    cases h1 : x.subst env σ <;> cases h2 : Types.substTypes env σ xs <;> rw [h1, h2] at hx <;> simp at hx
    subst hx
    simp [substTypes_length h2]

theorem instantiate_length {env : Types.Env} {p : Types.PolyFunc} {args : List Types.Term}
    {s : Types.Signature} (hi : p.instantiate env args = .ok s) :
    p.body.input.length = s.input.length ∧ p.body.output.length = s.output.length := by
  unfold Types.PolyFunc.instantiate at hi
  by_cases hc : Types.checkTerms args p.params = true
  · rw [if_pos hc] at hi
    cases hs : p.body.subst env args with
    | none => rw [hs] at hi; cases hi
    | some s' =>
      rw [hs] at hi; cases hi
      unfold Types.Signature.subst at hs
      cases h1 : Types.substTypes env args p.body.input with
      | none => rw [h1] at hs; cases hs
      | some i =>
        cases h2 : Types.substTypes env args p.body.output with
        | none => rw [h1, h2] at hs; cases hs
        | some o =>
          rw [h1, h2] at hs
          simp only [Option.some.injEq] at hs
          subst hs
          exact ⟨substTypes_length h1, substTypes_length h2⟩
  · rw [if_neg hc] at hi; cases hi

/-- The links and ports of a call. -/
theorem call_ports (sig : Types.PolyFunc) (targs : List Types.Term) (inst : Types.Signature) :
    (Op.call sig targs inst).ports .incoming = inst.input.map Kind.value ++ [.function sig] ++ [.stateOrder] := by
  simp [Op.ports]

theorem live_of_link (ht : IsTree h) (hv : Valid C h) {l : Link} (hl : l ∈ h.links) :
    (h.live l.src = true ∧ l.srcPort < h.outs l.src) ∧ h.live l.dst = true ∧ l.dstPort < h.ins l.dst := by
  obtain ⟨kind, h1, h2, p, hp, hor⟩ := hv.kinds l hl
  have hs := (ht.parent_live _ _ hp).1
  have hd : h.live l.dst = true := by
    rcases hor with hd | ⟨q, _, hq, _⟩
    · exact (ht.parent_live _ _ hd).1
    · exact (ht.parent_live _ _ hq).1
  refine ⟨⟨hs, ?_⟩, hd, ?_⟩
  · rw [(hv.ports _ hs).2]; exact (List.getElem?_eq_some_iff.1 h1).1
  · rw [(hv.ports _ hd).1]; exact (List.getElem?_eq_some_iff.1 h2).1

/-! ## Functions -/

theorem module_top (hv : Valid C h) {r : Nat} (hr : h.ops r = .module) : h.hier.parent r = none := by
  cases hp : h.hier.parent r with
  | none => rfl
  | some q =>
    have := hv.contains r q hp
    rw [hr] at this
    unfold MayContain at this
    cases hq : h.ops q <;> rw [hq] at this <;> simp [DataflowChild] at this

theorem func_parent (hv : Valid C h) {f r : Nat} {name : String} {sig : Types.PolyFunc}
    (hf : h.ops f = .funcDefn name sig) (hp : h.hier.parent f = some r) : h.ops r = .module := by
  have := hv.contains f r hp
  rw [hf] at this
  unfold MayContain at this
  cases hq : h.ops r <;> rw [hq] at this <;> simp [DataflowChild] at this

/-- No link leaves a function. -/
theorem link_leave (hv : Valid C h) {f r : Nat} {name : String} {sig : Types.PolyFunc}
    (hf : h.ops f = .funcDefn name sig) (hr : h.hier.parent f = some r) {l : Link} (hl : l ∈ h.links)
    (hi : Inside h f l.src) : Inside h f l.dst := by
  obtain ⟨p', hp', ha'⟩ := hi
  obtain ⟨kind, _, _, p, hp, hor⟩ := hv.kinds l hl
  rw [hp'] at hp; cases hp
  rcases hor with hd | ⟨q, a, hq, hqa, ⟨_, ha⟩ | ⟨_, ⟨ha, _⟩ | ⟨g, sig', entry, rest, hne, hpg, hag, hcfg, _⟩⟩⟩
  · exact ⟨_, hd, ha'⟩
  · exact ⟨q, hq, hqa.trans (.step ha ha')⟩
  · exact ⟨q, hq, hqa.trans (.step ha ha')⟩
  · rcases Dataflow.above_cases ha' with rfl | ⟨g', hg', hgf⟩
    · rw [hpg] at hr; cases hr
      rw [func_parent hv hf hpg] at hcfg; cases hcfg
    · rw [hpg] at hg'; cases hg'
      exact ⟨q, hq, hqa.trans (.step hag hgf)⟩

/-- What comes into a function is static, and comes from the module. -/
theorem link_enter (hv : Valid C h) {f r : Nat} {name : String} {sig : Types.PolyFunc}
    (hf : h.ops f = .funcDefn name sig) (hr : h.hier.parent f = some r) {l : Link} (hl : l ∈ h.links)
    (hi : Inside h f l.dst) : Inside h f l.src ∨ h.hier.parent l.src = some r ∧
      ∃ kind, ((h.ops l.dst).ports .incoming)[l.dstPort]? = some kind ∧ kind.isStatic = true := by
  have hmod := func_parent hv hf hr
  have htop := module_top hv hmod
  obtain ⟨q', hq', ha'⟩ := hi
  obtain ⟨kind, hs, hk, p, hp, hor⟩ := hv.kinds l hl
  have hchain : ∀ a, Above h.hier.parent q' a → a = f ∨ Inside h f a ∨ a = r := by
    intro a ha
    rcases ha'.total ha with h1 | h1
    · rcases Dataflow.above_cases h1 with e | ⟨x, hx, hxa⟩
      · exact .inl e.symm
      · rw [hr] at hx; cases hx
        rcases Dataflow.above_cases hxa with e | ⟨y, hy, _⟩
        · exact .inr (.inr e.symm)
        · rw [htop] at hy; cases hy
    · rcases Dataflow.above_cases h1 with e | ⟨x, hx, hxa⟩
      · exact .inl e
      · exact .inr (.inl ⟨x, hx, hxa⟩)
  rcases hor with hd | ⟨q, a, hq, hqa, ⟨hst, ha⟩ | ⟨⟨t, ht, _⟩, ⟨ha, _⟩ | ⟨g, sig', entry, rest, hne, hpg, hag, hcfg, _⟩⟩⟩
  · rw [hq'] at hd; cases hd
    exact .inl ⟨_, hp, ha'⟩
  · rw [hq'] at hq; cases hq
    rcases hchain a hqa with rfl | ⟨x, hx, hxf⟩ | rfl
    · rw [hr] at ha; cases ha
      exact .inr ⟨hp, kind, hk, hst⟩
    · rw [ha] at hx; cases hx
      exact .inl ⟨p, hp, hxf⟩
    · rw [htop] at ha; cases ha
  · rw [hq'] at hq; cases hq
    rcases hchain a hqa with rfl | ⟨x, hx, hxf⟩ | rfl
    · rw [hr] at ha; cases ha
      have := body_of_value hv hp (List.mem_of_getElem? hs) (.inl (by rw [ht]; rfl))
      rw [hmod] at this; cases this
    · rw [ha] at hx; cases hx
      exact .inl ⟨p, hp, hxf⟩
    · rw [htop] at ha; cases ha
  · rw [hq'] at hq; cases hq
    rcases hchain a hqa with rfl | ⟨x, hx, hxf⟩ | rfl
    · rw [hr] at hag; cases hag
      rw [hmod] at hcfg; cases hcfg
    · rw [hag] at hx; cases hx
      exact .inl ⟨p, hp, .step hpg hxf⟩
    · rw [htop] at hag; cases hag

/-! ## The call becomes a graph -/

theorem emptyCall_eq (ht : IsTree h) (hv : Valid C h) {n : Nat} (hn : h.live n = true)
    {sig : Types.PolyFunc} {targs : List Types.Term} {inst s : Types.Signature}
    (hop : h.ops n = .call sig targs inst) (hlen : s.input.length = inst.input.length) :
    ∃ g, emptyCall h n s = some g ∧ Emptied h n inst.input.length s g := by
  have hins : h.ins n = inst.input.length + 2 := by
    rw [(hv.ports n hn).1, hop, call_ports]; simp
  have hlinks : ∀ l ∈ h.links, l.dst = n → l.dstPort < inst.input.length + 2 := by
    intro l hl e
    have := (live_of_link ht hv hl).2.2
    rw [e, hins] at this; exact this
  unfold emptyCall
  rw [hop, call_static, call_order, dfg_order, hlen]
  simp only []
  rw [disconnect_eq hn (show inst.input.length < h.numPorts n .incoming from by
    change _ < h.ins n; omega)]
  simp only []
  rw [disconnect_set hn (show inst.input.length + 1 < h.numPorts n .incoming from by
    change _ < h.ins n; omega)]
  simp only []
  simp only [Hugr.replaceOp, setLinks_live, hn, if_true, Hugr.addPorts]
  rw [connectAll_ok]
  · refine ⟨_, rfl, ?_, ?_, ?_, ?_, ?_, rfl, rfl, rfl, rfl, rfl, rfl, ?_⟩
    · simp [Hugr.resizePorts, upd]
    · intro m hm; simp [Hugr.resizePorts, upd, hm]
    · simp [Hugr.resizePorts, upd, addSigned, hins]; omega
    · intro m hm; simp [Hugr.resizePorts, upd, hm]
    · funext m
      simp only [Hugr.resizePorts, upd]
      by_cases e : m = n <;> simp [e]
    · simp only [Hugr.resizePorts, setLinks_links, setLinks_ins, setLinks_outs, hins, List.filter_filter,
        Hugr.linkedOutputs, List.map_map]
      congr 1
      · apply List.filter_congr
        intro l hl
        have h1 := (live_of_link ht hv hl).1.2
        have h2 := hlinks l hl
        have h3 : l.src = n → l.srcPort < h.outs n := fun e => e ▸ h1
        simp only [Link.at, addSigned]
        rw [Bool.eq_iff_iff]
        simp
        omega
      · congr 1
        apply List.filter_congr
        intro l hl
        simp only [Link.at]
        rw [Bool.eq_iff_iff]
        simp
        omega
  · intro l hl
    simp only [List.mem_map, Hugr.linkedOutputs, setLinks_links, List.mem_filter] at hl
    obtain ⟨_, ⟨l, ⟨⟨hl, _⟩, h1⟩, rfl⟩, rfl⟩ := hl
    have h2 := live_of_link ht hv hl
    refine ⟨h2.1.1, ?_, hn, ?_⟩
    · simp only [Hugr.resizePorts, upd, setLinks_outs]
      by_cases e : l.src = n
      · rw [if_pos e, ← e]; exact h2.1.2
      · rw [if_neg e]; exact h2.1.2
    · simp [Hugr.resizePorts, upd, addSigned, hins]; omega

theorem Emptied.tree {n k : Nat} {s : Types.Signature} {g : Hugr Ops.Op Meta} (he : Emptied h n k s g)
    (ht : IsTree h) : IsTree g := by
  obtain ⟨a1, a2, a3, a4, a5, a6, a7, a8, a9⟩ := ht
  constructor
  · rw [he.live, he.moduleRoot]; exact a1
  · rw [he.live, he.entrypoint]; exact a2
  · rw [he.hier, he.moduleRoot]; exact a3
  · rw [he.live, he.hier, he.moduleRoot]; exact a4
  · rw [he.live, he.hier]; exact a5
  · rw [he.hier]; exact a6
  · rw [he.hier]; exact a7
  · rw [he.live, he.hier, he.moduleRoot]; exact a8
  · rw [he.live, he.cap]; exact a9

theorem Emptied.inside {n k : Nat} {s : Types.Signature} {g : Hugr Ops.Op Meta} (he : Emptied h n k s g)
    (a b : Nat) : Inside g a b ↔ Inside h a b := by
  unfold Inside; rw [he.hier]

theorem Emptied.descendants {n k : Nat} {s : Types.Signature} {g : Hugr Ops.Op Meta} (he : Emptied h n k s g)
    (a : Nat) : g.descendants a = h.descendants a := by
  unfold Hugr.descendants
  have : g.children = h.children := by
    funext x; change g.hier.children x = h.hier.children x; rw [he.hier]
  rw [this, he.cap]

/-- The types of a call fit the function. -/
theorem call_target (ht : IsTree h) (hv : Valid C h) {n f : Nat} {sig fsig : Types.PolyFunc}
    {targs : List Types.Term} {inst : Types.Signature} {name : String}
    (hop : h.ops n = .call sig targs inst) (hf : h.ops f = .funcDefn name fsig) {l : Link}
    (hl : l ∈ h.links) (hd : l.dst = n) (hp : l.dstPort = inst.input.length) (hs : l.src = f) :
    fsig = sig ∧ fsig.body.input.length = inst.input.length ∧
      fsig.body.output.length = inst.output.length := by
  obtain ⟨kind, h1, h2⟩ := link_kinds hv hl
  rw [hd, hp, hop, call_ports] at h2
  have h3 : kind = .function sig := by simpa using h2.symm
  unfold srcKind at h1
  rw [hs, hf, h3] at h1
  have h4 : fsig = sig := by
    have := List.mem_of_getElem? h1
    simp [Op.ports] at this
    exact this.symm
  have hn : h.live n = true := hd ▸ (live_of_link ht hv hl).2.1
  obtain ⟨d, hd'⟩ := declsAt_exists ht n hn
  have h5 := (hv.types n d hn hd').1
  rw [hop] at h5
  refine ⟨h4, ?_⟩
  rw [h4]
  exact instantiate_length h5

end Verif.Patch
