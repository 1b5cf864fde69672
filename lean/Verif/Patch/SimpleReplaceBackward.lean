import Verif.Patch.SimpleReplaceForward

/-!
# Replacing a subgraph: the replacement does only what the subgraph could do
-/
namespace Verif.Patch

open Verif.Graph Verif.Ops Verif.Passes Verif.Validate Verif.Dataflow

variable {Meta W E : Type} {C C' : Validate.Context} {h r g : Hugr Ops.Op Meta} {s : Subgraph} {i o p : Nat}
  {f : Nat → Nat}

namespace SwapAt

variable (z : SwapAt C C' h r g p i o s f)
include z

theorem jump_old {l : Link} {b : Nat} (hb : h.live b = true) (hs : l.src = b) (hl : l ∈ g.links)
    {x y : List Types.Ty} {w : List (List Types.Ty)} (hop : h.ops b = .dataflowBlock x y w) :
    l ∈ h.links ∧ l.dst ∉ s.nodes := by
  have key : ∀ {k ap : Nat}, ¬ Feeds h s k b ap := by
    intro k ap hf
    obtain ⟨t, _, _, _, _, k1, _⟩ := z.feeds_kind hf
    rw [hop] at k1
    have := List.mem_of_getElem? k1
    simp [Op.ports] at this
  rcases (z.replaced.links l).1 hl with ⟨h1, _, h3⟩ | hn
  · exact ⟨h1, h3⟩
  · cases hn with
    | inner _ h2 _ => exact absurd hs.symm (z.old hb h2)
    | incoming h1 _ _ => simp only [] at hs; subst hs; exact absurd h1 key
    | outgoing h1 h2 hu => exact absurd hs.symm (z.old hb (z.wired.stop _ _ _ h1 h2))
    | through _ h1 _ => simp only [] at hs; subst hs; exact absurd h1 key

theorem p_not_cfg (sg : Types.Signature) : h.ops p ≠ .cfg sg := by
  intro e
  have := z.removable.region
  rw [e] at this
  simp [Validate.body] at this

variable {S Sr S' : Sem W E}

omit z in
/-- What a run with the replacement gives. -/
def Bwd (h : Hugr Ops.Op Meta) (S : Sem W E) (r : Hugr Ops.Op Meta) (Sr : Sem W E) (s : Subgraph)
    (i o : Nat) (f : Nat → Nat) : Task W → Prop
  | .graph ρ' P vals outs σ' =>
      (h.live P = true → P ∉ s.nodes → (Validate.body (h.ops P)).isSome = true → ∀ ρ, AgreeH h r s i o f ρ ρ' →
        Defined h (See h P) ρ →
        ∃ σ, Runs h S (.graph ρ P vals outs σ) ∧ AgreeH h r s i o f σ σ' ∧ Defined h (VIn h P) σ) ∧
      ∀ x, Fresh r i o x → P = f x → ∀ τ, AgreeF r i o f τ ρ' →
        ∃ τ', Runs (bodiless r) (answering Sr (Answer h S)) (.graph τ x vals outs τ') ∧ AgreeF r i o f τ' σ'
  | .node ρ' n ins outs =>
      (n ∉ s.nodes → ∀ Q, h.hier.parent n = some Q → ∀ ρ, AgreeH h r s i o f ρ ρ' →
        Defined h (VIn h Q) ρ → Runs h S (.node ρ n ins outs)) ∧
      ∀ x, Fresh r i o x → n = f x → ∀ τ, AgreeF r i o f τ ρ' →
        Runs (bodiless r) (answering Sr (Answer h S)) (.node τ x ins outs)
  | .loop ρ' n ins outs =>
      (h.live n = true → n ∉ s.nodes → ∀ ρ, AgreeH h r s i o f ρ ρ' →
        Defined h (See h n) ρ → Runs h S (.loop ρ n ins outs)) ∧
      ∀ x, Fresh r i o x → n = f x → ∀ τ, AgreeF r i o f τ ρ' →
        Runs (bodiless r) (answering Sr (Answer h S)) (.loop τ x ins outs)
  | .blocks ρ' b ins outs =>
      (Reached h b → b ∉ s.nodes → ∀ ρ, AgreeH h r s i o f ρ ρ' →
        Defined h (See h b) ρ → Runs h S (.blocks ρ b ins outs)) ∧
      ∀ x, Fresh r i o x → b = f x → ∀ τ, AgreeF r i o f τ ρ' →
        Runs (bodiless r) (answering Sr (Answer h S)) (.blocks τ x ins outs)

/-- The region of the subgraph. -/
theorem backward_p (hA : Respects h S s r Sr) {ρ' σ' ρ : Wires W} {i0 o0 : Nat}
    {vals res : List (Val W)} {ins outs : Nat → List (Val W)} (hio : HasIO g p i0 o0)
    (hout : ∀ n, n ∉ g.children p → σ' n = ρ' n) (hvals : σ' i0 = outWires vals)
    (hlen : vals.length = numOuts (g.ops i0)) (hno : σ' o0 = outWires [])
    (hready : ∀ n, Inner g p i0 o0 n → Ready g σ' n (ins n))
    (hval : ∀ n, Inner g p i0 o0 n → σ' n = outWires (outs n))
    (hsize : ∀ n, Inner g p i0 o0 n → (outs n).length = numOuts (g.ops n)) (hres : Ready g σ' o0 res)
    (ih : ∀ n, Inner g p i0 o0 n → Bwd h S r Sr s i o f (.node σ' n (ins n) (outs n)))
    (ha : AgreeH h r s i o f ρ ρ') (hd : Defined h (See h p) ρ) :
    ∃ σ, Runs h S (.graph ρ p vals res σ) ∧ AgreeH h r s i o f σ σ' ∧ Defined h (VIn h p) σ := by
  obtain ⟨ip, op, ti, tj, hioh, hiog, e1, e2, n1, n2, pi, po⟩ := z.io_kept
  obtain ⟨rfl, rfl⟩ := hasIO_fun hio hiog
  have hlive : ∀ n, h.hier.parent n = some p → h.live n = true := fun n hn => z.child_live hn
  have hpar : ∀ n, Inner h p i0 o0 n → h.hier.parent n = some p := fun n hn => (z.tree.child_iff p n).1 hn.1
  have hinner : ∀ n, Inner h p i0 o0 n → n ∉ s.nodes → Inner g p i0 o0 n := fun n hn hk =>
    ⟨z.mem_p.2 (.inl ⟨hpar n hn, hk⟩), hn.2.1, hn.2.2⟩
  have hnew : ∀ x, Fresh r i o x → r.hier.parent x = some r.entrypoint → Inner g p i0 o0 (f x) := fun x hx hp =>
    ⟨z.mem_p.2 (.inr ⟨x, hp, hx, rfl⟩), (z.old (hlive _ pi) hx).symm, (z.old (hlive _ po) hx).symm⟩
  have hget : ∀ (h : Hugr Ops.Op Meta) (n port : Nat) (t : Types.Ty) (vs : List (Val W)), (h.ops n).tagOk = true →
      ((h.ops n).ports .outgoing)[port]? = some (.value t) → vs.length = numOuts (h.ops n) →
      ∃ v, outWires vs port = some v := by
    intro h n port t vs ht hk hl
    have := out_lt ht hk
    exact ⟨vs[port]'(by omega), List.getElem?_eq_getElem _⟩
  -- the wires around
  let σ1 : Wires W := fun n => if h.hier.parent n = some p then σ' n else ρ n
  have s1 : ∀ n, h.hier.parent n = some p → σ1 n = σ' n := fun n hn => if_pos hn
  have s2 : ∀ n, h.hier.parent n ≠ some p → σ1 n = ρ n := fun n hn => if_neg hn
  have hnested : ∀ x, Fresh r i o x → r.hier.parent x ≠ some r.entrypoint → σ' (f x) = noWires x := by
    intro x hx hp
    rw [hout _ ?_, ha.2 x hx hp]
    rw [z.mem_p]
    rintro (⟨h1, _⟩ | ⟨y, h1, h2, h3⟩)
    · exact z.old (hlive _ h1) hx rfl
    · exact hp (by rw [z.replaced.injective _ _ hx h2 h3]; exact h1)
  have a0 : ∀ n, h.live n = true → n ∉ s.nodes → σ' n = σ1 n := by
    intro n hn hk
    by_cases hp : h.hier.parent n = some p
    · rw [s1 n hp]
    · rw [s2 n hp, ← ha.1 n hn hk]
      refine hout n ?_
      rw [z.mem_p]
      rintro (⟨h1, _⟩ | ⟨y, h1, h2, h3⟩)
      · exact hp h1
      · exact z.old hn h2 h3
  have hdef1 : ∀ n port t A, ((h.ops n).ports .outgoing)[port]? = some (.value t) →
      h.hier.parent n = some A → VIn h p A → n ∉ s.nodes → ∃ v, σ1 n port = some v := by
    intro n port t A hk hp hV hns
    have htag := z.valid.tags n (z.child_live hp)
    by_cases hAp : A = p
    · subst hAp
      rw [s1 n hp]
      by_cases hni : n = i0
      · subst hni
        rw [hvals]
        exact hget h n port t vals htag hk (by rw [hlen, z.ops_old (hlive _ hp) hns])
      · by_cases hno' : n = o0
        · subst hno'
          rw [e2] at hk; simp [Op.ports] at hk
        · have hin := hinner n ⟨(z.tree.child_iff A n).2 hp, hni, hno'⟩ hns
          rw [hval n hin]
          exact hget h n port t _ htag hk (by rw [hsize n hin, z.ops_old (hlive _ hp) hns])
    · rw [s2 n (by rw [hp]; simpa using hAp)]
      exact hd n port t A hk hp (hV.resolve_left hAp)
  -- the values at the inputs
  obtain ⟨insV, i1, i2⟩ : ∃ L : List (Val W), L.length = s.inputs.length ∧
      ∀ k v, L[k]? = some v → ∃ a ap, Feeds h s k a ap ∧ σ1 a ap = some v := by
    refine choose_list fun k hk => ?_
    obtain ⟨a, ap, hf⟩ := z.feeds_of (List.getElem?_eq_getElem hk)
    obtain ⟨t, n, np, hn, hl, k1, _⟩ := z.feeds_kind hf
    obtain ⟨A, Q, hpa, hpq, hV⟩ := link_see z.tree z.valid hl (t := t) k1
    simp only [] at hpa hpq
    rw [z.removable.parent n hn] at hpq; cases hpq
    obtain ⟨v, hv⟩ := hdef1 a ap t A k1 hpa hV (z.feeds_live hf).2
    exact ⟨v, a, ap, hf, hv⟩
  have hfeeds : ∀ k a ap, Feeds h s k a ap → σ1 a ap = insV[k]? := by
    intro k a ap hf
    obtain ⟨n, np, rest, f1, f2, f3, f4⟩ := z.feeds_link hf
    have hk : k < insV.length := by rw [i1]; exact (List.getElem?_eq_some_iff.1 f1).1
    obtain ⟨a', ap', hf', hv⟩ := i2 k _ (List.getElem?_eq_getElem hk)
    obtain ⟨q1, q2⟩ := z.feeds_src hf' f1 f3 (by simp)
    simp only [] at q1 q2
    rw [List.getElem?_eq_getElem hk, q1, q2]; exact hv
  -- the wires of the replacement
  have hio_ne : o ≠ i := by
    obtain ⟨_, _, _, _, _, q1, q2, _⟩ := z.children
    intro e
    rw [e, q1] at q2; cases q2
  let τ : Wires W := fun x => if x = i then outWires insV else if x = o then outWires [] else
    if r.hier.parent x = some r.entrypoint then σ' (f x) else noWires x
  have t1 : τ i = outWires insV := if_pos rfl
  have t2 : τ o = outWires [] := by simp only [τ]; rw [if_neg hio_ne]; exact if_pos trivial
  have t3 : ∀ x, Fresh r i o x → r.hier.parent x = some r.entrypoint → τ x = σ' (f x) := by
    intro x hx hp
    simp only [τ]; rw [if_neg hx.2.1, if_neg hx.2.2, if_pos hp]
  have t4 : ∀ x, r.hier.parent x ≠ some r.entrypoint → τ x = noWires x := by
    intro x hp
    simp only [τ]
    rw [if_neg (by rintro rfl; exact hp z.io_parent.1), if_neg (by rintro rfl; exact hp z.io_parent.2), if_neg hp]
  have a2 : AgreeF r i o f τ σ' := by
    intro x hx
    by_cases hp : r.hier.parent x = some r.entrypoint
    · rw [t3 x hx hp]
    · rw [t4 x hp, hnested x hx hp]
  have hfeeds' : ∀ k a ap, Feeds h s k a ap → σ' a ap = insV[k]? := by
    intro k a ap hf
    obtain ⟨c1, c2⟩ := z.feeds_live hf
    rw [a0 _ c1 c2, hfeeds _ _ _ hf]
  obtain ⟨sg, _, hopi, hopo, ⟨sl1, _⟩, sl2, _⟩ := z.sig
  have hni : numOuts (r.ops i) = sg.input.length := by
    simp only [hopi, numOuts, Op.ports]
    simp [List.filter_map, Function.comp_def, Kind.isValue, List.filter_cons]
  obtain ⟨_, _, _, _, _, _, _, _, _, _, hlo⟩ := z.children
  obtain ⟨outsV, hoV⟩ := ready_of_defined (W := W) z.validR hlo (ρ := τ) (by
    rintro l hl hld ⟨t, ht⟩
    have hl' : (⟨l.src, l.srcPort, o, l.dstPort⟩ : Link) ∈ r.links := by rw [← hld]; exact hl
    have hp := z.to_output hl'
    by_cases hi : l.src = i
    · rw [hi, t1]
      rw [hi] at hl'
      have := z.i_value hl'
      exact ⟨insV[l.srcPort]'(by omega), List.getElem?_eq_getElem _⟩
    · have hx : Fresh r i o l.src := z.wired.stop _ _ _ hl' hi
      rw [t3 _ hx hp, hval _ (hnew _ hx hp)]
      exact hget r _ _ t _ (z.validR.tags _ (z.live_new hx)) ht (by rw [hsize _ (hnew _ hx hp), z.ops_new hx]))
  have hbody : BodyMeans r Sr (Answer h S) insV outsV := by
    obtain ⟨_, _, rest, _, hch, _⟩ := z.children
    have hfr : ∀ x, Inner r r.entrypoint i o x → Fresh r i o x ∧ r.hier.parent x = some r.entrypoint := by
      rintro x ⟨q1, q2, q3⟩
      have hp := (z.treeR.child_iff _ _).1 q1
      exact ⟨z.child_fresh hp (.inl rfl) q2 q3, hp⟩
    refine ⟨τ, .graph (i := i) (o := o) (ins := fun x => ins (f x)) (outs := fun x => outs (f x)) ⟨rest, hch⟩ ?_ t1 ?_ t2 ?_ ?_ ?_ ?_ ?_⟩
    · exact fun n hn => t4 n fun hh => hn ((z.treeR.child_iff _ _).2 hh)
    · rw [bodiless_outs, hni, i1, sl1]
    · intro x hx
      obtain ⟨q1, q2⟩ := hfr x hx
      exact bodiless_ready.2 ((z.ready_new a2 t1 hfeeds' q1).2 (hready _ (hnew x q1 q2)))
    · intro x hx
      obtain ⟨q1, q2⟩ := hfr x hx
      rw [t3 x q1 q2, hval _ (hnew x q1 q2)]
    · intro x hx
      obtain ⟨q1, q2⟩ := hfr x hx
      rw [bodiless_outs, hsize _ (hnew x q1 q2), z.ops_new q1]
    · intro x hx
      obtain ⟨q1, q2⟩ := hfr x hx
      exact (ih _ (hnew x q1 q2)).2 x q1 rfl τ a2
    · exact bodiless_ready.2 hoV
  obtain ⟨_, _, σs, args, rs, hsub, houtputs⟩ := hA _ _ _ hbody
  -- the wires with the subgraph
  let σ : Wires W := fun n => if n ∈ s.nodes then σs n else σ1 n
  have u1 : ∀ n ∈ s.nodes, σ n = σs n := fun n hn => if_pos hn
  have u2 : ∀ n, n ∉ s.nodes → σ n = σ1 n := fun n hn => if_neg hn
  have a1 : AgreeH h r s i o f σ σ' := ⟨fun n hn hk => by rw [a0 n hn hk, u2 n hk], hnested⟩
  have B : Bridge h r s i o f σ σ' τ insV outsV := by
    refine ⟨a1.1, a2, t1, fun k a ap hf => ?_, fun j n np hj => ?_, hoV⟩
    · rw [u2 _ (z.feeds_live hf).2, hfeeds _ _ _ hf]
    · rw [u1 n (z.removable.outputs _ (List.mem_of_getElem? hj)), houtputs j n np hj]
  have w1 : ∀ n, n ∉ h.children p → σ n = ρ n := by
    intro n hn
    have hp : h.hier.parent n ≠ some p := fun hh => hn ((z.tree.child_iff p n).2 hh)
    rw [u2 n (fun hs => hp (z.removable.parent n hs)), s2 n hp]
  have w2 : σ i0 = outWires vals := by rw [u2 _ n1, s1 _ pi, hvals]
  have w3 : vals.length = numOuts (h.ops i0) := by rw [hlen, z.ops_old (hlive _ pi) n1]
  have w4 : ∀ n, Inner h p i0 o0 n → σ n = outWires (if n ∈ s.nodes then rs n else outs n) := by
    intro n hn
    by_cases hk : n ∈ s.nodes
    · rw [if_pos hk, u1 n hk]; exact (hsub n hk).2.2.1
    · rw [if_neg hk, u2 n hk, s1 n (hpar n hn), hval n (hinner n hn hk)]
  have w5 : ∀ n, Inner h p i0 o0 n → (if n ∈ s.nodes then rs n else outs n).length = numOuts (h.ops n) := by
    intro n hn
    by_cases hk : n ∈ s.nodes
    · rw [if_pos hk]; exact (hsub n hk).2.2.2.1
    · rw [if_neg hk, hsize n (hinner n hn hk), z.ops_old (hlive n (hpar n hn)) hk]
  have hdef : Defined h (VIn h p) σ :=
    defined_step z.valid z.tree hioh z.removable.region (vals := vals)
      (outs := fun n => if n ∈ s.nodes then rs n else outs n) w1 w2 w3 w4 w5 hd
  refine ⟨σ, ?_, a1, hdef⟩
  refine .graph (ins := fun n => if n ∈ s.nodes then args n else ins n)
    (outs := fun n => if n ∈ s.nodes then rs n else outs n) hioh w1 w2 w3 ?_ ?_ w4 w5 ?_ ?_
  · rw [u2 _ n2, s1 _ po, hno]
  · intro n hn
    by_cases hk : n ∈ s.nodes
    · rw [if_pos hk]
      obtain ⟨q1, q2, _⟩ := hsub n hk
      refine ⟨q1, fun port v hv => ?_⟩
      rcases q2 port v hv with ⟨k, part, hp, hm, hkv⟩ | ⟨l, l1, l2, l3, l4, l5⟩
      · obtain ⟨t, ht⟩ := z.in_port (z.node_live hk) q1 hv
        obtain ⟨l, l1, l2, l3, _⟩ := value_link z.valid (z.node_live hk) ht
        obtain ⟨a, ap, hf⟩ := z.feeds_of hp
        obtain ⟨b1, b2⟩ := z.feeds_src hf hp l1 (by rw [l2, l3]; exact hm)
        exact ⟨l, l1, l2, l3, by rw [b1, b2, B.feeds _ _ _ hf]; exact hkv⟩
      · exact ⟨l, l1, l3, l4, by rw [u1 _ l2]; exact l5⟩
    · rw [if_neg hk]
      exact (z.ready_old B (hlive n (hpar n hn)) hk).2 (hready n (hinner n hn hk))
  · intro n hn
    by_cases hk : n ∈ s.nodes
    · rw [if_pos hk, if_pos hk]
      rcases node_close (z.removable.leaf n hk) (hsub n hk).2.2.2.2 σ with q | ⟨k, as, q1, q2, q3⟩
      · exact q
      · exact z.answered q1 q2 q3
    · rw [if_neg hk, if_neg hk]
      exact (ih n (hinner n hn hk)).1 hk p (hpar n hn) σ a1 hdef
  · exact (z.ready_old B (hlive _ po) n2).2 hres

/-- A region inside of the replacement. -/
theorem backward_new {ρ' σ' : Wires W} {P i0 o0 : Nat}
    {vals res : List (Val W)} {ins outs : Nat → List (Val W)} (hP : Fresh r i o P) (hio : HasIO g (f P) i0 o0)
    (hout : ∀ n, n ∉ g.children (f P) → σ' n = ρ' n) (hvals : σ' i0 = outWires vals)
    (hlen : vals.length = numOuts (g.ops i0)) (hno : σ' o0 = outWires [])
    (hready : ∀ n, Inner g (f P) i0 o0 n → Ready g σ' n (ins n))
    (hval : ∀ n, Inner g (f P) i0 o0 n → σ' n = outWires (outs n))
    (hsize : ∀ n, Inner g (f P) i0 o0 n → (outs n).length = numOuts (g.ops n)) (hres : Ready g σ' o0 res)
    (ih : ∀ n, Inner g (f P) i0 o0 n → Bwd h S r Sr s i o f (.node σ' n (ins n) (outs n)))
    {τ : Wires W} (ha : AgreeF r i o f τ ρ') :
    ∃ τ', Runs (bodiless r) (answering Sr (Answer h S)) (.graph τ P vals res τ') ∧ AgreeF r i o f τ' σ' := by
  obtain ⟨a, b, rfl, rfl, hior⟩ := z.hasIO_back hP hio
  obtain ⟨hpa, hpb⟩ := z.hasIO_mem hior
  have hch : ∀ x, r.hier.parent x = some P → Fresh r i o x := fun x hx => z.child_fresh' hx hP
  let τ' : Wires W := fun x => if r.hier.parent x = some P then σ' (f x) else τ x
  have s1 : ∀ x, r.hier.parent x = some P → τ' x = σ' (f x) := fun x hx => if_pos hx
  have s2 : ∀ x, r.hier.parent x ≠ some P → τ' x = τ x := fun x hx => if_neg hx
  have a1 : AgreeF r i o f τ' σ' := by
    intro x hx
    by_cases hp : r.hier.parent x = some P
    · rw [s1 x hp]
    · rw [s2 x hp, ← ha x hx]
      refine hout _ fun hm => ?_
      obtain ⟨y, hy, e⟩ := (z.mem_new hP).1 hm
      exact hp (by rw [z.replaced.injective _ _ hx (hch y hy) e]; exact hy)
  have hinner : ∀ x, Inner r P a b x → r.hier.parent x = some P ∧ Inner g (f P) (f a) (f b) (f x) := by
    rintro x ⟨q1, q2, q3⟩
    have hp := (z.treeR.child_iff _ _).1 q1
    exact ⟨hp, (z.mem_new hP).2 ⟨x, hp, rfl⟩, fun e => q2 (z.replaced.injective _ _ (hch x hp) (hch a hpa) e),
      fun e => q3 (z.replaced.injective _ _ (hch x hp) (hch b hpb) e)⟩
  refine ⟨τ', ?_, a1⟩
  refine .graph (i := a) (o := b) (ins := fun x => ins (f x)) (outs := fun x => outs (f x)) hior ?_ ?_ ?_ ?_ ?_ ?_ ?_ ?_ ?_
  · exact fun n hn => s2 n fun hh => hn ((z.treeR.child_iff _ _).2 hh)
  · rw [s1 a hpa, hvals]
  · rw [bodiless_outs, hlen, z.ops_new (hch a hpa)]
  · rw [s1 b hpb, hno]
  · intro x hx
    obtain ⟨q1, q2⟩ := hinner x hx
    exact bodiless_ready.2 ((z.ready_inner a1 (hch x q1) (z.not_top q1 hP)).2 (hready _ q2))
  · intro x hx
    obtain ⟨q1, q2⟩ := hinner x hx
    rw [s1 x q1, hval _ q2]
  · intro x hx
    obtain ⟨q1, q2⟩ := hinner x hx
    rw [bodiless_outs, hsize _ q2, z.ops_new (hch x q1)]
  · intro x hx
    obtain ⟨q1, q2⟩ := hinner x hx
    exact (ih _ q2).2 x (hch x q1) rfl τ' a1
  · exact bodiless_ready.2 ((z.ready_inner a1 (hch b hpb) (z.not_top hpb hP)).2 hres)

/-- Another region. -/
theorem backward_host {ρ' σ' ρ : Wires W} {P i0 o0 : Nat}
    {vals res : List (Val W)} {ins outs : Nat → List (Val W)} (hPl : h.live P = true) (hk : P ∉ s.nodes) (hPp : P ≠ p)
    (hb : (Validate.body (h.ops P)).isSome = true) (hio : HasIO g P i0 o0)
    (hout : ∀ n, n ∉ g.children P → σ' n = ρ' n) (hvals : σ' i0 = outWires vals)
    (hlen : vals.length = numOuts (g.ops i0)) (hno : σ' o0 = outWires [])
    (hready : ∀ n, Inner g P i0 o0 n → Ready g σ' n (ins n))
    (hval : ∀ n, Inner g P i0 o0 n → σ' n = outWires (outs n))
    (hsize : ∀ n, Inner g P i0 o0 n → (outs n).length = numOuts (g.ops n)) (hres : Ready g σ' o0 res)
    (ih : ∀ n, Inner g P i0 o0 n → Bwd h S r Sr s i o f (.node σ' n (ins n) (outs n)))
    (ha : AgreeH h r s i o f ρ ρ') (hd : Defined h (See h P) ρ) :
    ∃ σ, Runs h S (.graph ρ P vals res σ) ∧ AgreeH h r s i o f σ σ' ∧ Defined h (VIn h P) σ := by
  have hioh : HasIO h P i0 o0 := by
    obtain ⟨rest, hr⟩ := hio
    exact ⟨rest, by rw [← z.replaced.host_children P hPl hk hPp]; exact hr⟩
  obtain ⟨pi, po⟩ := z.hasIO_host hioh
  have hpar : ∀ n, Inner h P i0 o0 n → h.hier.parent n = some P := fun n hn => (z.tree.child_iff P n).1 hn.1
  have hlk : ∀ n, h.hier.parent n = some P → h.live n = true ∧ n ∉ s.nodes ∧ h.hier.parent n ≠ some p := fun n hn =>
    ⟨z.child_live hn, z.kept_child hPp hn, by rw [hn]; simpa using hPp⟩
  have hinner : ∀ n, Inner h P i0 o0 n → Inner g P i0 o0 n := fun n hn =>
    ⟨(z.mem_other hPl hk hPp).2 (hpar n hn), hn.2.1, hn.2.2⟩
  let σ : Wires W := fun n => if h.hier.parent n = some P then σ' n else ρ n
  have s1 : ∀ n, h.hier.parent n = some P → σ n = σ' n := fun n hn => if_pos hn
  have s2 : ∀ n, h.hier.parent n ≠ some P → σ n = ρ n := fun n hn => if_neg hn
  have s3 : ∀ n, h.hier.parent n ≠ some P → σ' n = ρ' n := fun n hn =>
    hout n fun hm => hn ((z.mem_other hPl hk hPp).1 hm)
  have a1 := z.agree_step (P := P) hPl hk hPp s2 s3 (fun n hn => (s1 n hn).symm) ha
  have hoff : ∀ n, n ∉ h.children P → σ n = ρ n := fun n hn =>
    s2 n fun hh => hn ((z.tree.child_iff P n).2 hh)
  have hsz : ∀ n, Inner h P i0 o0 n → (outs n).length = numOuts (h.ops n) := fun n hn => by
    obtain ⟨q1, q2, _⟩ := hlk n (hpar n hn)
    rw [hsize n (hinner n hn), z.ops_old q1 q2]
  have hvl : ∀ n, Inner h P i0 o0 n → σ n = outWires (outs n) := fun n hn => by
    rw [s1 n (hpar n hn), hval n (hinner n hn)]
  have hvi : σ i0 = outWires vals := by rw [s1 i0 pi, hvals]
  have hli : vals.length = numOuts (h.ops i0) := by
    rw [hlen, z.ops_old (hlk _ pi).1 (hlk _ pi).2.1]
  have hdef := defined_step z.valid z.tree hioh hb hoff hvi hli hvl hsz hd
  refine ⟨σ, .graph (ins := ins) (outs := outs) hioh hoff hvi hli ?_ ?_ hvl hsz ?_ ?_, a1, hdef⟩
  · rw [s1 o0 po, hno]
  · intro n hn
    obtain ⟨q1, q2, q3⟩ := hlk n (hpar n hn)
    exact (z.ready_host a1.1 q1 q2 q3).2 (hready n (hinner n hn))
  · intro n hn
    obtain ⟨q1, q2, q3⟩ := hlk n (hpar n hn)
    exact (ih n (hinner n hn)).1 q2 P (hpar n hn) σ a1 hdef
  · obtain ⟨q1, q2, q3⟩ := hlk o0 po
    exact (z.ready_host a1.1 q1 q2 q3).2 hres

omit z in
theorem defined_start {V : Validate.Context} (hv : Valid V h) {k : Nat} (hf : IsDefn h k) :
    Defined h (See h k) (noWires : Wires W) :=
  fun _ _ _ A h1 h2 h3 => (Dissolved.see_defn hv hf A (region_of_value hv h2 h1) h3).elim

theorem backward (hS : Merges h r s i o f S Sr S') (hdef : ∀ k, IsDefn g k ↔ IsDefn h k)
    (hlv : ∀ k, IsDefn h k → h.live k = true) (hA : Respects h S s r Sr)
    {t : Task W} (hr : Runs g S' t) : Bwd h S r Sr s i o f t := by
  have hnop : ∀ {x : Nat}, Fresh r i o x → ∀ {op : Ops.Op}, g.ops (f x) = op → (bodiless r).ops x = op := fun hx _ e =>
    (z.bodiless_new hx).trans ((z.ops_new hx).symm.trans e)
  induction hr with
  | @graph ρ' σ' P i0 o0 vals res ins outs hio hout hvals hlen hno hready hval hsize hruns hres ih =>
    refine ⟨fun hPl hk hb ρ ha hd => ?_, ?_⟩
    · by_cases hPp : P = p
      · subst hPp
        exact z.backward_p hA hio hout hvals hlen hno hready hval hsize hres ih ha hd
      · exact z.backward_host hPl hk hPp hb hio hout hvals hlen hno hready hval hsize hres ih ha hd
    · rintro x hx rfl τ ha
      exact z.backward_new hx hio hout hvals hlen hno hready hval hsize hres ih ha
  | @leaf ρ' n ins outs hl =>
    refine ⟨fun hk Q hp ρ ha hd => .leaf ((z.leaf_old hS hdef (z.child_live hp) hk).1 hl), ?_⟩
    rintro x hx rfl τ ha
    refine .leaf (z.leaf_back hS hx hl fun k args outs h1 h2 => .inr ⟨fun hh => h1 ((hdef k).2 hh), ?_⟩)
    rw [← hS.external]; exact h2
  | const hop =>
    refine ⟨fun hk Q hp ρ ha hd => .const ((z.ops_old (z.child_live hp) hk).symm.trans hop), ?_⟩
    rintro x hx rfl τ ha
    exact .const (hnop hx hop)
  | @dfg ρ' σ' n sg ins outs hop hr ih =>
    refine ⟨fun hk Q hp ρ ha hd => ?_, ?_⟩
    · have hop' := (z.ops_old (z.child_live hp) hk).symm.trans hop
      have hm : ∀ A, (Validate.body (h.ops A)).isSome = true → See h n A → VIn h Q A := fun A _ hs =>
        vin_of_see hp (parent_not_cfg z.valid hp (by rw [hop']; trivial) (by rw [hop']; simp)) A hs
      obtain ⟨σ, r', _⟩ := ih.1 (z.child_live hp) hk (by rw [hop']; rfl) ρ ha (hd.mono z.valid hm)
      exact .dfg hop' r'
    · rintro x hx rfl τ ha
      obtain ⟨τ', r', _⟩ := ih.2 x hx rfl τ ha
      exact .dfg (hnop hx hop) r'
  | @cond ρ' σ' n c tag rows other ots row elems rst outs hop hc hrow hlen hr ih =>
    refine ⟨fun hk Q hp ρ ha hd => ?_, ?_⟩
    · have hop' := (z.ops_old (z.child_live hp) hk).symm.trans hop
      have hnp : n ≠ p := z.not_p (by rw [hop']; rfl)
      rw [z.replaced.host_children n (z.child_live hp) hk hnp] at hc
      have hcp : h.hier.parent c = some n := (z.tree.child_iff n c).1 (List.mem_of_getElem? hc)
      have hm := see_case z.valid hp hop' hcp
      have hb : (Validate.body (h.ops c)).isSome = true := by
        have := z.valid.contains c n hcp
        rw [hop'] at this
        cases hk : h.ops c <;> rw [hk] at this <;> simp_all [MayContain, Validate.body]
      obtain ⟨σ, r', _⟩ := ih.1 (z.child_live hcp) (z.kept_child hnp hcp) hb ρ ha (hd.mono z.valid hm)
      exact .cond hop' hc hrow hlen r'
    · rintro x hx rfl τ ha
      rw [z.replaced.node_children x hx, List.getElem?_map] at hc
      cases hc' : (r.children x)[tag]? with
      | none => rw [hc'] at hc; cases hc
      | some y =>
        rw [hc'] at hc
        have hcp := (z.treeR.child_iff x y).1 (List.mem_of_getElem? hc')
        obtain ⟨τ', r', _⟩ := ih.2 y (z.child_fresh' hcp hx) (Option.some.inj hc).symm τ ha
        exact .cond (hnop hx hop) hc' hrow hlen r'
  | @tailLoop ρ' n ji jo rst ins outs hop hr ih =>
    refine ⟨fun hk Q hp ρ ha hd => ?_, ?_⟩
    · have hop' := (z.ops_old (z.child_live hp) hk).symm.trans hop
      have hm : ∀ A, (Validate.body (h.ops A)).isSome = true → See h n A → VIn h Q A := fun A _ hs =>
        vin_of_see hp (parent_not_cfg z.valid hp (by rw [hop']; trivial) (by rw [hop']; simp)) A hs
      exact .tailLoop hop' (ih.1 (z.child_live hp) hk ρ ha (hd.mono z.valid hm))
    · rintro x hx rfl τ ha
      exact .tailLoop (hnop hx hop) (ih.2 x hx rfl τ ha)
  | @again ρ' σ' n ji jo rst ins elems others outs hop hlen hr hr2 ih ih2 =>
    refine ⟨fun hn hk ρ ha hd => ?_, ?_⟩
    · have hop' := (z.ops_old hn hk).symm.trans hop
      obtain ⟨σ, r', _⟩ := ih.1 hn hk (by rw [hop']; rfl) ρ ha hd
      exact .again hop' hlen r' (ih2.1 hn hk ρ ha hd)
    · rintro x hx rfl τ ha
      obtain ⟨τ', r', _⟩ := ih.2 x hx rfl τ ha
      exact .again (hnop hx hop) hlen r' (ih2.2 x hx rfl τ ha)
  | @done ρ' σ' n ji jo rst ins elems others hop hlen hr ih =>
    refine ⟨fun hn hk ρ ha hd => ?_, ?_⟩
    · have hop' := (z.ops_old hn hk).symm.trans hop
      obtain ⟨σ, r', _⟩ := ih.1 hn hk (by rw [hop']; rfl) ρ ha hd
      exact .done hop' hlen r'
    · rintro x hx rfl τ ha
      obtain ⟨τ', r', _⟩ := ih.2 x hx rfl τ ha
      exact .done (hnop hx hop) hlen r'
  | @cfg ρ' n entry rst sg ins outs hop hc hr ih =>
    refine ⟨fun hk Q hp ρ ha hd => ?_, ?_⟩
    · have hop' := (z.ops_old (z.child_live hp) hk).symm.trans hop
      have hnp : n ≠ p := z.not_p (by rw [hop']; rfl)
      rw [z.replaced.host_children n (z.child_live hp) hk hnp] at hc
      have hm := see_entry z.tree z.valid hp hop' hc
      obtain ⟨q1, q2, _⟩ := Reached.entry z.tree hop' hc
      exact .cfg hop' hc (ih.1 q2 (z.kept_child hnp q1) ρ ha (hd.mono z.valid hm))
    · rintro x hx rfl τ ha
      rw [z.replaced.node_children x hx] at hc
      cases hc' : r.children x with
      | nil => rw [hc'] at hc; cases hc
      | cons y ys =>
        rw [hc'] at hc
        simp only [List.map_cons, List.cons.injEq] at hc
        have hcp := (z.treeR.child_iff x y).1 (by change y ∈ r.children x; rw [hc']; simp)
        exact .cfg (hnop hx hop) hc' (ih.2 y (z.child_fresh' hcp hx) hc.1.symm τ ha)
  | @jump ρ' σ' b tag x other y w rows ww row ins elems others outs l hop hrow hlen hl hsrc hsp hdst hr hr2 ih ih2 =>
    refine ⟨fun hre hk ρ ha hd => ?_, ?_⟩
    · obtain ⟨_, _, _, _, hp, _⟩ := id hre
      have hbl := z.child_live hp
      have hop' := (z.ops_old hbl hk).symm.trans hop
      obtain ⟨hl', hk2⟩ := z.jump_old hbl hsrc hl hop'
      have hdst' := (z.ops_old (z.live_link hl').2 hk2).symm.trans hdst
      obtain ⟨σ, r', a1, d1⟩ := ih.1 hbl hk (by rw [hop']; rfl) ρ ha hd
      subst hsrc
      have hm := see_jump z.tree z.valid hl' hop' hre
      exact .jump hop' hrow hlen hl' rfl hsp hdst' r' (ih2.1 (hre.step z.tree z.valid hl' hop').1 hk2 σ
        a1 (d1.mono z.valid hm))
    · rintro x hx rfl τ ha
      obtain ⟨y, hy, e, hl'⟩ := z.jump_back hx hsrc hl (by rw [hdst]; simp [Op.ports])
      obtain ⟨τ', r', a1⟩ := ih.2 x hx rfl τ ha
      rw [e] at hdst
      exact .jump (l := ⟨x, l.srcPort, y, l.dstPort⟩) (hnop hx hop) hrow hlen hl' rfl hsp (hnop hy hdst) r'
        (ih2.2 y hy e τ' a1)
  | @exit ρ' σ' b tag x other ots rows row ins elems others l hop hrow hlen hl hsrc hsp hdst hr ih =>
    refine ⟨fun hre hk ρ ha hd => ?_, ?_⟩
    · obtain ⟨_, _, _, _, hp, _⟩ := id hre
      have hbl := z.child_live hp
      have hop' := (z.ops_old hbl hk).symm.trans hop
      obtain ⟨hl', hk2⟩ := z.jump_old hbl hsrc hl hop'
      have hdst' := (z.ops_old (z.live_link hl').2 hk2).symm.trans hdst
      obtain ⟨σ, r', a1, d1⟩ := ih.1 hbl hk (by rw [hop']; rfl) ρ ha hd
      exact .exit hop' hrow hlen hl' hsrc hsp hdst' r'
    · rintro x hx rfl τ ha
      obtain ⟨y, hy, e, hl'⟩ := z.jump_back hx hsrc hl (by rw [hdst]; simp [Op.ports])
      obtain ⟨τ', r', a1⟩ := ih.2 x hx rfl τ ha
      rw [e] at hdst
      exact .exit (l := ⟨x, l.srcPort, y, l.dstPort⟩) (hnop hx hop) hrow hlen hl' rfl hsp (hnop hy hdst) r'
  | @call ρ' σ' n k ins args outs hc hf hlen hr ih =>
    have hf' := (hdef k).1 hf
    obtain ⟨nm, sg, hfo⟩ := id hf'
    obtain ⟨σ, r', _⟩ := ih.1 (hlv k hf') (z.defn_kept hf') (by rw [hfo]; rfl) noWires agree_start (defined_start z.valid hf')
    refine ⟨fun hk Q hp ρ ha hd => ?_, ?_⟩
    · have hn := z.child_live hp
      exact .call ((z.calls_old hn hk).1 hc) hf' (by rw [← z.ops_old hn hk]; exact hlen) r'
    · rintro x hx rfl τ ha
      exact .leaf (.external (bodiless_calls.2 ((z.calls_new hx).1 hc)) (bodiless_defn _)
        (by rw [bodiless_outs, ← z.ops_new hx]; exact hlen) (.inl ⟨hf', σ, r'⟩))

theorem returns_back (hS : Merges h r s i o f S Sr S') (hdef : ∀ k, IsDefn g k ↔ IsDefn h k)
    (hlv : ∀ k, IsDefn h k → h.live k = true) (hA : Respects h S s r Sr)
    {k : Nat} {args outs : List (Val W)} (hr : Returns g S' k args outs) : Returns h S k args outs := by
  obtain ⟨hf, σ', hr⟩ := hr
  have hf' := (hdef k).1 hf
  obtain ⟨nm, sg, hfo⟩ := id hf'
  obtain ⟨σ, r', _⟩ := (z.backward hS hdef hlv hA hr).1 (hlv k hf') (z.defn_kept hf') (by rw [hfo]; rfl) noWires
    agree_start (defined_start z.valid hf')
  exact ⟨hf', σ, r'⟩

end SwapAt
end Verif.Patch
