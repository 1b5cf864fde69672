import Verif.Patch.InlineDfgLemmas
import Verif.Patch.See
import Verif.Patch.Semantics
import Verif.Dataflow.AnalysisSound

/-!
# Inlining a DFG node: the values on the wires
-/
namespace Verif.Patch

open Verif.Graph Verif.Ops Verif.Passes Verif.Validate Verif.Dataflow

variable {Meta W E : Type} {C : Validate.Context} {h g : Hugr Ops.Op Meta}

/-! ## Links of values -/

theorem inCount_one {ls : List Link} {n port : Nat} (hc : inCount ls n port = 1) :
    ∃ l ∈ ls, l.dst = n ∧ l.dstPort = port ∧ ∀ l' ∈ ls, l'.dst = n → l'.dstPort = port → l' = l := by
  unfold inCount at hc
  rw [List.countP_eq_length_filter, List.length_eq_one_iff] at hc
  obtain ⟨l, hl⟩ := hc
  have hm : ∀ x, x ∈ ls ∧ x.dst = n ∧ x.dstPort = port ↔ x = l := by
    intro x
    have : x ∈ ls.filter (fun l => decide (l.dst = n) && decide (l.dstPort = port)) ↔ x = l := by
      rw [hl]; simp
    rw [← this, List.mem_filter]
    simp
  obtain ⟨h1, h2, h3⟩ := (hm l).2 rfl
  exact ⟨l, h1, h2, h3, fun l' a b c => (hm l').1 ⟨a, b, c⟩⟩

/-- The only link to a port for a value. -/
theorem value_link (hv : Valid C h) {n port : Nat} {t : Types.Ty} (hn : h.live n = true)
    (hk : ((h.ops n).ports .incoming)[port]? = some (.value t)) :
    ∃ l ∈ h.links, l.dst = n ∧ l.dstPort = port ∧
      ∀ l' ∈ h.links, l'.dst = n → l'.dstPort = port → l' = l := by
  refine inCount_one ?_
  rw [count_linksTo]
  exact hv.inDegree n port _ hn hk

theorem in_kind {op : Ops.Op} (ht : op.tagOk = true) {port : Nat} (hp : port < numIns op) :
    ∃ t, (op.ports .incoming)[port]? = some (.value t) := by
  rw [numIns_eq ht] at hp
  exact in_value ht hp

theorem out_lt {op : Ops.Op} (ht : op.tagOk = true) {port : Nat} {t : Types.Ty}
    (hp : (op.ports .outgoing)[port]? = some (.value t)) : port < numOuts op := by
  rw [numOuts_eq ht]
  exact value_out ht hp

/-- There are values on all links to a node. -/
theorem ready_of_defined (hv : Valid C h) {n : Nat} (hn : h.live n = true) {ρ : Wires W}
    (hd : ∀ l ∈ h.links, l.dst = n → (∃ t, srcKind h l = some (.value t)) → ∃ v, ρ l.src l.srcPort = some v) :
    ∃ ins, Ready h ρ n ins := by
  have key : ∀ k, k ≤ numIns (h.ops n) → ∃ ins : List (Val W), ins.length = k ∧
      ∀ i v, ins[i]? = some v → ∃ l ∈ h.links, l.dst = n ∧ l.dstPort = i ∧ ρ l.src l.srcPort = some v := by
    intro k
    induction k with
    | zero => exact fun _ => ⟨[], rfl, by simp⟩
    | succ k ih =>
      intro hk
      obtain ⟨ins, hl, hi⟩ := ih (by omega)
      obtain ⟨t, hkind⟩ := in_kind (hv.tags n hn) (show k < numIns (h.ops n) by omega)
      obtain ⟨l, hl1, hl2, hl3, _⟩ := value_link hv hn hkind
      obtain ⟨kind, k1, k2⟩ := link_kinds hv hl1
      rw [hl2, hl3, hkind] at k2; cases k2
      obtain ⟨v, hw⟩ := hd l hl1 hl2 ⟨t, k1⟩
      refine ⟨ins ++ [v], by simp [hl], ?_⟩
      intro j w hj
      rw [List.getElem?_append] at hj
      split at hj
      · exact hi j w hj
      · rename_i hlt
        have hlen := (List.getElem?_eq_some_iff.1 hj).1
        simp only [List.length_singleton] at hlen
        have hj0 : j = k := by omega
        subst hj0
        rw [hl, Nat.sub_self] at hj
        simp only [List.getElem?_cons_zero, Option.some.injEq] at hj
        subst hj
        exact ⟨l, hl1, hl2, hl3, hw⟩
  obtain ⟨ins, h1, h2⟩ := key _ (Nat.le_refl _)
  exact ⟨ins, h1, h2⟩

/-- What is ready depends on the sources of the links. -/
theorem ready_congr {n : Nat} {ρ ρ' : Wires W} {ins : List (Val W)}
    (hs : ∀ l ∈ h.links, l.dst = n → ρ' l.src = ρ l.src) (hr : Ready h ρ n ins) : Ready h ρ' n ins := by
  refine ⟨hr.1, fun k v hk => ?_⟩
  obtain ⟨l, h1, h2, h3, h4⟩ := hr.2 k v hk
  exact ⟨l, h1, h2, h3, by rw [hs l h1 h2]; exact h4⟩

/-- The value on a link to a node that is ready. -/
theorem ready_value (hv : Valid C h) {n : Nat} (hn : h.live n = true) {ρ : Wires W} {ins : List (Val W)}
    (hr : Ready h ρ n ins) {l : Link} (hl : l ∈ h.links) (h1 : l.dst = n) {t : Types.Ty}
    (hk : ((h.ops n).ports .incoming)[l.dstPort]? = some (.value t)) (hlt : l.dstPort < numIns (h.ops n)) :
    ρ l.src l.srcPort = ins[l.dstPort]? := by
  obtain ⟨l0, _, _, _, hu⟩ := value_link hv hn hk
  rw [← hr.1] at hlt
  obtain ⟨l', m1, m2, m3, m4⟩ := hr.2 l.dstPort _ (List.getElem?_eq_getElem hlt)
  have : l' = l := (hu l' m1 m2 m3).trans (hu l hl h1 rfl).symm
  subst this
  rw [m4, List.getElem?_eq_getElem hlt]

/-! ## The dissolved node -/

/-- A DFG node of a valid Hugr, and the Hugr without it. -/
structure Dissolved (C : Validate.Context) (h g : Hugr Ops.Op Meta) (p d i o : Nat) (sig : Types.Signature)
    (rest : List Nat) : Prop where
  tree : IsTree h
  valid : Valid C h
  treeG : IsTree g
  dfg : DfgAt h p d i o sig rest
  inl : Inlined h p d i o g

variable {p d i o : Nat} {sig : Types.Signature} {rest : List Nat}

namespace Dissolved
variable (z : Dissolved C h g p d i o sig rest)
include z

theorem K : DfgLinks h d i o sig.input.length sig.output.length := z.dfg.links z.tree z.valid

theorem pd : p ≠ d := by
  rintro rfl
  exact z.tree.acyclic _ _ z.dfg.parent (.refl _)

theorem see_dp : See h d p := see_parent z.dfg.parent

theorem not_see_pd : ¬ See h p d := fun hs => see_irrefl z.tree p (hs.trans z.tree z.see_dp)

theorem body_p : (body (h.ops p)).isSome = true :=
  body_of_value z.valid z.dfg.parent (kind := .stateOrder) (dir := .incoming)
    (by rw [z.dfg.op]; simp [Op.ports]) (.inr rfl)

theorem p_not_cfg (s : Types.Signature) : h.ops p ≠ .cfg s := by
  intro hs
  have := z.body_p
  rw [hs] at this
  simp [body] at this

theorem kindI {port : Nat} {kind : Kind} :
    ((h.ops i).ports .outgoing)[port]? = some kind ↔ ((h.ops d).ports .incoming)[port]? = some kind := by
  rw [z.dfg.opI, z.dfg.op]; rfl

theorem kindO {port : Nat} {kind : Kind} :
    ((h.ops o).ports .incoming)[port]? = some kind ↔ ((h.ops d).ports .outgoing)[port]? = some kind := by
  rw [z.dfg.opO, z.dfg.op]; rfl

theorem numO : numIns (h.ops o) = numOuts (h.ops d) := by
  rw [z.dfg.opO, z.dfg.op]; rfl

theorem numI : numOuts (h.ops i) = numIns (h.ops d) := by
  rw [z.dfg.opI, z.dfg.op]; rfl

theorem src_ne_o {port : Nat} {n : Nat} {kind : Kind} (hk : ((h.ops n).ports .outgoing)[port]? = some kind) :
    n ≠ o := by
  rintro rfl
  rw [z.dfg.opO] at hk
  simp [Op.ports] at hk

theorem comes_ne {n port s sp : Nat} (hc : Comes h d i o n port s sp) (hn : n ≠ o) :
    s ≠ d ∧ s ≠ i ∧ s ≠ o := by
  induction hc with
  | self h1 h2 => exact ⟨h1, h2, hn⟩
  | input hl => exact ⟨fun e => z.K.noDD _ hl e rfl, fun e => z.K.noID _ hl e rfl, z.K.noO _ hl⟩
  | output hl _ ih => exact ih (z.K.noO _ hl)

theorem comes_total {n port : Nat} {t : Types.Ty}
    (hk : ((h.ops n).ports .outgoing)[port]? = some (.value t)) : ∃ s sp, Comes h d i o n port s sp := by
  have hi : ∀ {port : Nat} {t : Types.Ty}, ((h.ops i).ports .outgoing)[port]? = some (.value t) →
      ∃ s sp, Comes h d i o i port s sp := by
    intro port t hk
    obtain ⟨l, h1, h2, h3, _⟩ := value_link z.valid z.K.liveD (z.kindI.1 hk)
    refine ⟨l.src, l.srcPort, .input ?_⟩
    rw [← h2, ← h3]; exact h1
  by_cases hnd : n = d
  · subst hnd
    obtain ⟨l, h1, h2, h3, _⟩ := value_link z.valid z.K.liveO (z.kindO.2 hk)
    have hl : (⟨l.src, l.srcPort, o, port⟩ : Link) ∈ h.links := by rw [← h2, ← h3]; exact h1
    by_cases hsi : l.src = i
    · obtain ⟨kind, k1, k2⟩ := link_kinds z.valid h1
      rw [h2, h3, z.kindO.2 hk] at k2; cases k2
      unfold srcKind at k1
      rw [hsi] at k1
      obtain ⟨s, sp, hc⟩ := hi k1
      rw [hsi] at hl
      exact ⟨s, sp, .output hl hc⟩
    · exact ⟨_, _, .output hl (.self (fun e => z.K.noDO l h1 e h2) hsi)⟩
  · by_cases hni : n = i
    · subst hni; exact hi hk
    · exact ⟨n, port, .self hnd hni⟩

/-- Where a value comes from is in a region that can be used. -/
theorem comes_region {n port s sp : Nat} {t : Types.Ty} (hc : Comes h d i o n port s sp)
    (hk : ((h.ops n).ports .outgoing)[port]? = some (.value t)) :
    s = n ∨ ((n = d ∨ n = i) ∧ ∃ B, h.hier.parent s = some B ∧ ((n = d ∧ B = d) ∨ B = p ∨ See h p B)) := by
  have hi : ∀ {port s sp : Nat} {t : Types.Ty}, ⟨s, sp, d, port⟩ ∈ h.links →
      ((h.ops d).ports .incoming)[port]? = some (.value t) →
      ∃ B, h.hier.parent s = some B ∧ (B = p ∨ See h p B) := by
    intro port s sp t hl hk
    obtain ⟨kind, k1, k2⟩ := link_kinds z.valid hl
    simp only [hk, Option.some.injEq] at k2
    subst k2
    obtain ⟨A, Q, h1, h2, h3⟩ := link_see z.tree z.valid hl k1
    simp only [] at h1 h2
    rw [z.dfg.parent] at h2; cases h2
    exact ⟨A, h1, h3⟩
  cases hc with
  | self => exact .inl rfl
  | input hl =>
    obtain ⟨B, h1, h2⟩ := hi hl (z.kindI.1 hk)
    exact .inr ⟨.inr rfl, B, h1, .inr h2⟩
  | output hl hc' =>
    rename_i n' np'
    refine .inr ⟨.inl rfl, ?_⟩
    obtain ⟨kind, k1, k2⟩ := link_kinds z.valid hl
    simp only [z.kindO.2 hk, Option.some.injEq] at k2
    subst k2
    cases hc' with
    | self =>
      obtain ⟨A, Q, h1, h2, h3⟩ := link_see z.tree z.valid hl k1
      simp only [] at h1 h2
      rw [z.dfg.parentO z.tree] at h2; cases h2
      refine ⟨A, h1, ?_⟩
      rcases h3 with e | hs
      · exact .inl ⟨rfl, e⟩
      · rcases see_child z.dfg.parent hs with e | hs | hs
        · exact .inr (.inl e)
        · exact .inr (.inr hs)
        · obtain ⟨s, hs⟩ := hs.cfg z.dfg.parent
          exact absurd hs (z.p_not_cfg s)
    | input hl2 =>
      obtain ⟨B, h1, h2⟩ := hi hl2 (z.kindI.1 k1)
      exact ⟨B, h1, .inr h2⟩
    | output => exact absurd rfl (z.K.noDO _ hl rfl)

end Dissolved

/-- The values are the same, where they come from, in the given regions. -/
def Agree (h : Hugr Ops.Op Meta) (d i o : Nat) (V : Nat → Prop) (ρ ρ' : Wires W) : Prop :=
  ∀ n port t A s sp, ((h.ops n).ports .outgoing)[port]? = some (.value t) → h.hier.parent n = some A →
    V A → Comes h d i o n port s sp → ρ' s sp = ρ n port

/-- There are values in the given regions. -/
def Defined (h : Hugr Ops.Op Meta) (V : Nat → Prop) (ρ : Wires W) : Prop :=
  ∀ n port t A, ((h.ops n).ports .outgoing)[port]? = some (.value t) → h.hier.parent n = some A →
    V A → ∃ v, ρ n port = some v

/-- The region itself and what it can use. -/
def VIn (h : Hugr Ops.Op Meta) (P : Nat) (A : Nat) : Prop := A = P ∨ See h P A

theorem Agree.mono (hv : Valid C h) {V V' : Nat → Prop} {ρ ρ' : Wires W}
    (hV : ∀ A, (body (h.ops A)).isSome = true → V' A → V A) (ha : Agree h d i o V ρ ρ') :
    Agree h d i o V' ρ ρ' := fun n port t A s sp h1 h2 h3 h4 =>
  ha n port t A s sp h1 h2 (hV A (region_of_value hv h2 h1) h3) h4

theorem Defined.mono (hv : Valid C h) {V V' : Nat → Prop} {ρ : Wires W}
    (hV : ∀ A, (body (h.ops A)).isSome = true → V' A → V A) (ha : Defined h V ρ) :
    Defined h V' ρ := fun n port t A h1 h2 h3 =>
  ha n port t A h1 h2 (hV A (region_of_value hv h2 h1) h3)

namespace Dissolved
variable (z : Dissolved C h g p d i o sig rest)
include z

theorem agree_step {P : Nat} (hPp : P ≠ p) (hPd : P ≠ d) {ρ ρ' σ σ' : Wires W}
    (h1 : ∀ n, h.hier.parent n ≠ some P → σ n = ρ n) (h2 : ∀ n, h.hier.parent n ≠ some P → σ' n = ρ' n)
    (h3 : ∀ n, h.hier.parent n = some P → σ' n = σ n) (ha : Agree h d i o (See h P) ρ ρ') :
    Agree h d i o (VIn h P) σ σ' := by
  intro n port t A s sp hk hp hV hc
  by_cases hn : h.hier.parent n = some P
  · have hne : n ≠ d ∧ n ≠ i := by
      constructor
      · rintro rfl; rw [z.dfg.parent] at hn; cases hn; exact hPp rfl
      · rintro rfl; rw [z.dfg.parentI z.tree] at hn; cases hn; exact hPd rfl
    cases hc with
    | self => rw [h3 _ hn]
    | input => exact absurd rfl hne.2
    | output => exact absurd rfl hne.1
  · have hs : See h P A := by
      rcases hV with e | hs
      · rw [hp, e] at hn; exact absurd rfl hn
      · exact hs
    rw [h1 n hn, ← ha n port t A s sp hk hp hs hc, h2]
    intro hsP
    rcases z.comes_region hc hk with e | ⟨hor, B, hB, hor2⟩
    · rw [e] at hsP; exact hn hsP
    · rw [hsP] at hB; cases hB
      have hPp' : See h P p := by
        rcases hor with e | e
        · rw [e, z.dfg.parent] at hp; cases hp; exact hs
        · rw [e, z.dfg.parentI z.tree] at hp; cases hp; exact hs.trans z.tree z.see_dp
      rcases hor2 with ⟨_, e⟩ | e | hs2
      · exact hPd e
      · exact hPp e
      · exact see_irrefl z.tree P (hPp'.trans z.tree hs2)

theorem mem_rest {n : Nat} : n ∈ rest ↔ h.hier.parent n = some d ∧ n ≠ i ∧ n ≠ o := by
  have hch : h.hier.children d = i :: o :: rest := z.dfg.children
  have hnd := z.tree.child_once d
  rw [hch, List.nodup_cons, List.nodup_cons] at hnd
  rw [← z.tree.child_iff, hch]
  constructor
  · intro hn
    refine ⟨by simp [hn], ?_, ?_⟩
    · rintro rfl; exact hnd.1 (by simp [hn])
    · rintro rfl; exact hnd.2.1 hn
  · rintro ⟨hm, a1, a2⟩
    simpa [a1, a2] using hm

theorem agree_inline {ρ ρ' σ σd σ' : Wires W} {vals outs : List (Val W)}
    (h1 : ∀ n, h.hier.parent n ≠ some p → σ n = ρ n)
    (h2 : ∀ n, h.hier.parent n ≠ some p → n ∉ rest → σ' n = ρ' n)
    (h3 : ∀ n, h.hier.parent n = some p → n ≠ d → σ' n = σ n)
    (h4 : ∀ n, h.hier.parent n ≠ some d → σd n = σ n) (h5 : ∀ n ∈ rest, σ' n = σd n)
    (h6 : σd i = outWires vals) (h7 : Ready h σ d vals) (h8 : σ d = outWires outs) (h9 : Ready h σd o outs)
    (ha : Agree h d i o (See h p) ρ ρ') :
    Agree h d i o (VIn h p) σ σ' ∧ Agree h d i o (VIn h d) σd σ' := by
  -- nodes of the region of the DFG node and around
  have hself : ∀ n A port t, ((h.ops n).ports .outgoing)[port]? = some (.value t) →
      h.hier.parent n = some A → VIn h p A → n ≠ d → σ' n port = σ n port := by
    intro n A port t hk hp hV hnd
    rcases hV with e | hs
    · subst e; rw [h3 n hp hnd]
    · have hAp : A ≠ p := by rintro rfl; exact see_irrefl z.tree _ hs
      have hAd : A ≠ d := by rintro rfl; exact z.not_see_pd hs
      rw [h1 n (by rw [hp]; simpa using hAp), h2 n (by rw [hp]; simpa using hAp)
        (fun hm => by have := (z.mem_rest.1 hm).1; rw [hp] at this; cases this; exact hAd rfl)]
      refine ha n port t A n port hk hp hs (.self hnd ?_)
      rintro rfl
      rw [z.dfg.parentI z.tree] at hp; cases hp; exact hAd rfl
  -- the input
  have hinput : ∀ port t s sp, ((h.ops i).ports .outgoing)[port]? = some (.value t) →
      ⟨s, sp, d, port⟩ ∈ h.links → σ' s sp = σd i port := by
    intro port t s sp hk hl
    have hkd := z.kindI.1 hk
    have hval := ready_value z.valid z.K.liveD h7 hl rfl hkd (by
      rw [← z.numI]; exact out_lt (z.valid.tags i z.K.liveI) hk)
    simp only [] at hval
    obtain ⟨kind, k1, k2⟩ := link_kinds z.valid hl
    simp only [hkd, Option.some.injEq] at k2
    subst k2
    obtain ⟨A, Q, q1, q2, q3⟩ := link_see z.tree z.valid hl k1
    simp only [] at q1 q2
    rw [z.dfg.parent] at q2; cases q2
    rw [hself s A sp t k1 q1 q3 (fun e => z.K.noDD _ hl e rfl), hval, h6]
    rfl
  -- nodes inside
  have hin : ∀ n A port t s sp, ((h.ops n).ports .outgoing)[port]? = some (.value t) →
      h.hier.parent n = some A → VIn h d A → n ≠ d → Comes h d i o n port s sp → σ' s sp = σd n port := by
    intro n A port t s sp hk hp hV hnd hc
    cases hc with
    | self _ hni =>
      by_cases hA : A = d
      · subst hA
        rw [h5 n (z.mem_rest.2 ⟨hp, hni, z.src_ne_o hk⟩)]
      · rw [h4 n (by rw [hp]; simpa using hA)]
        refine hself n A port t hk hp ?_ hnd
        rcases hV with e | hs
        · exact absurd e hA
        · rcases see_child z.dfg.parent hs with e | hs | hs
          · exact .inl e
          · exact .inr hs
          · obtain ⟨s, hs⟩ := hs.cfg z.dfg.parent
            exact absurd hs (z.p_not_cfg s)
    | input hl => exact hinput port t s sp hk hl
    | output => exact absurd rfl hnd
  -- the DFG node
  have hdfg : ∀ port t s sp, ((h.ops d).ports .outgoing)[port]? = some (.value t) →
      Comes h d i o d port s sp → σ' s sp = σ d port := by
    intro port t s sp hk hc
    cases hc with
    | self hd => exact absurd rfl hd
    | input => exact absurd rfl z.K.di
    | output hl hc' =>
      rename_i n' np'
      have hko := z.kindO.2 hk
      have hval := ready_value z.valid z.K.liveO h9 hl rfl hko (by
        rw [z.numO]; exact out_lt (z.valid.tags d z.K.liveD) hk)
      simp only [] at hval
      obtain ⟨kind, k1, k2⟩ := link_kinds z.valid hl
      simp only [hko, Option.some.injEq] at k2
      subst k2
      obtain ⟨A, Q, q1, q2, q3⟩ := link_see z.tree z.valid hl k1
      simp only [] at q1 q2
      rw [z.dfg.parentO z.tree] at q2; cases q2
      rw [hin n' A np' t s sp k1 q1 q3 (fun e => z.K.noDO _ hl e rfl) hc', hval, h8]
      rfl
  constructor
  · intro n port t A s sp hk hp hV hc
    by_cases hnd : n = d
    · subst hnd; exact hdfg port t s sp hk hc
    · cases hc with
      | self => exact hself n A port t hk hp hV hnd
      | input =>
        rw [z.dfg.parentI z.tree] at hp; cases hp
        rcases hV with e | hs
        · exact absurd e.symm z.pd
        · exact absurd hs z.not_see_pd
      | output => exact absurd rfl hnd
  · intro n port t A s sp hk hp hV hc
    by_cases hnd : n = d
    · subst hnd
      rw [hdfg port t s sp hk hc, h4]
      rw [z.dfg.parent]
      simpa using z.pd
    · exact hin n A port t s sp hk hp hV hnd hc

/-! ## Links -/

theorem ops_eq {n : Nat} (h1 : n ≠ d) (h2 : n ≠ i) (h3 : n ≠ o) : g.ops n = h.ops n := z.inl.ops n h1 h2 h3

theorem ready_iff {n Q : Nat} (hp : h.hier.parent n = some Q) (h1 : n ≠ d) (h2 : n ≠ i) (h3 : n ≠ o)
    {σ σ' : Wires W} (ha : Agree h d i o (VIn h Q) σ σ') {ins : List (Val W)} :
    Ready h σ n ins ↔ Ready g σ' n ins := by
  have hlive := (z.tree.parent_live _ _ hp).1
  unfold Ready
  rw [z.ops_eq h1 h2 h3]
  refine and_congr_right fun hlen => ⟨fun hr k v hk => ?_, fun hr k v hk => ?_⟩
  · obtain ⟨l, l1, l2, l3, l4⟩ := hr k v hk
    obtain ⟨t, hkind⟩ := in_kind (z.valid.tags n hlive) (show k < numIns (h.ops n) by
      rw [← hlen]; exact (List.getElem?_eq_some_iff.1 hk).1)
    obtain ⟨kind, k1, k2⟩ := link_kinds z.valid l1
    rw [l2, l3, hkind] at k2; cases k2
    obtain ⟨A, Q', q1, q2, q3⟩ := link_see z.tree z.valid l1 k1
    rw [l2, hp] at q2; cases q2
    obtain ⟨s, sp, hc⟩ := z.comes_total k1
    have hne := z.comes_ne hc (z.src_ne_o k1)
    refine ⟨⟨s, sp, n, k⟩, (z.inl.links _).2 ⟨hne, ⟨h1, h2, h3⟩, .inl ⟨l.src, l.srcPort, ?_, hc⟩⟩, rfl, rfl, ?_⟩
    · have : (⟨l.src, l.srcPort, n, k⟩ : Link) = l := by rw [← l2, ← l3]
      rw [this]; exact l1
    · change σ' s sp = _
      rw [ha _ _ t A s sp k1 q1 q3 hc]
      exact l4
  · obtain ⟨l, l1, l2, l3, l4⟩ := hr k v hk
    obtain ⟨t, hkind⟩ := in_kind (z.valid.tags n hlive) (show k < numIns (h.ops n) by
      rw [← hlen]; exact (List.getElem?_eq_some_iff.1 hk).1)
    rcases ((z.inl.links l).1 l1).2.2 with ⟨n0, port0, m1, hc⟩ | ⟨⟨_, ho⟩, _⟩
    · obtain ⟨kind, k1, k2⟩ := link_kinds z.valid m1
      simp only [l2, l3, hkind, Option.some.injEq] at k2
      subst k2
      obtain ⟨A, Q', q1, q2, q3⟩ := link_see z.tree z.valid m1 k1
      simp only [l2] at q1 q2
      rw [hp] at q2; cases q2
      refine ⟨_, m1, l2, l3, ?_⟩
      simp only []
      rw [← ha _ _ t A _ _ k1 q1 q3 hc]
      exact l4
    · rw [l2, l3, hkind] at ho
      cases ho

/-- Links to other ports are the same. -/
theorem static_link {l : Link} {kind : Kind} (hk : ((h.ops l.dst).ports .incoming)[l.dstPort]? = some kind)
    (h1 : kind.isValue = false) (h2 : kind ≠ .stateOrder) (hn : l.dst ≠ d ∧ l.dst ≠ i ∧ l.dst ≠ o) :
    l ∈ g.links ↔ l ∈ h.links := by
  rw [z.inl.links]
  have hsrc : ∀ n port, ⟨n, port, l.dst, l.dstPort⟩ ∈ h.links → n ≠ d ∧ n ≠ i := by
    intro n port hl
    obtain ⟨k', k1, k2⟩ := link_kinds z.valid hl
    simp only [hk, Option.some.injEq] at k2
    subst k2
    have key : ¬ (n = d ∨ n = i) := by
      intro hor
      obtain ⟨k', k3, k4⟩ := z.dfg.kind z.valid hl (hor.elim .inl fun e => .inr (.inl e))
      rw [k1] at k3; cases k3
      rcases k4 with k4 | k4
      · rw [h1] at k4; cases k4
      · exact h2 k4
    tauto
  constructor
  · rintro ⟨_, _, ⟨n0, port0, m1, hc⟩ | ⟨⟨_, ho⟩, _⟩⟩
    · have hne := hsrc _ _ m1
      generalize hs : l.src = s at hc
      generalize hsp : l.srcPort = sp at hc
      cases hc with
      | self => rw [← hs, ← hsp] at m1; exact m1
      | input => exact absurd rfl hne.2
      | output => exact absurd rfl hne.1
    · rw [hk] at ho; cases ho; exact absurd rfl h2
  · intro hl
    have hne := hsrc l.src l.srcPort hl
    exact ⟨⟨hne.1, hne.2, z.K.noO l hl⟩, hn, .inl ⟨_, _, hl, .self hne.1 hne.2⟩⟩

theorem isDefn_iff (f : Nat) : IsDefn g f ↔ IsDefn h f := by
  unfold IsDefn
  by_cases hf : f = d ∨ f = i ∨ f = o
  · rw [z.inl.forgotten f hf]
    rcases hf with rfl | rfl | rfl
    · rw [z.dfg.op]; simp
    · rw [z.dfg.opI]; simp
    · rw [z.dfg.opO]; simp
  · rw [z.ops_eq (by tauto) (by tauto) (by tauto)]

theorem calls_iff {n : Nat} (h1 : n ≠ d) (h2 : n ≠ i) (h3 : n ≠ o) {ins args : List (Val W)} {f : Nat} :
    Calls h n ins f args ↔ Calls g n ins f args := by
  have hop := z.ops_eq h1 h2 h3
  constructor
  · intro hc
    cases hc with
    | @direct sig targs inst args l ho hl hd hp =>
      refine .direct (l := l) (hop.trans ho) ((z.static_link (kind := .function sig) ?_ rfl (by simp) (by rw [hd]; exact ⟨h1, h2, h3⟩)).2 hl) hd hp
      rw [hd, ho, hp]; simp [Op.ports]
    | indirect ho => exact .indirect (hop.trans ho)
  · intro hc
    cases hc with
    | @direct sig targs inst args l ho hl hd hp =>
      have ho := hop.symm.trans ho
      refine .direct (l := l) ho ((z.static_link (kind := .function sig) ?_ rfl (by simp) (by rw [hd]; exact ⟨h1, h2, h3⟩)).1 hl) hd hp
      rw [hd, ho, hp]; simp [Op.ports]
    | indirect ho => exact .indirect (hop.symm.trans ho)

theorem leaf_iff {S : Sem W E} {n : Nat} (h1 : n ≠ d) (h2 : n ≠ i) (h3 : n ≠ o) {ins outs : List (Val W)} :
    Leaf h S n ins outs ↔ Leaf g S n ins outs := by
  have hop := z.ops_eq h1 h2 h3
  constructor
  · intro hc
    cases hc with
    | makeTuple ho => exact .makeTuple (hop.trans ho)
    | unpackTuple ho hl => exact .unpackTuple (hop.trans ho) hl
    | tag ho => exact .tag (hop.trans ho)
    | @loadConstant t t' l ho hl hd hp hs =>
      have hl' : l ∈ g.links := (z.static_link (kind := .const t) (by rw [hd, ho, hp]; simp [Op.ports]) rfl (by simp)
        (by rw [hd]; exact ⟨h1, h2, h3⟩)).2 hl
      obtain ⟨a1, a2, a3⟩ := ((z.inl.links l).1 hl').1
      exact .loadConstant (hop.trans ho) hl' hd hp ((z.ops_eq a1 a2 a3).trans hs)
    | @loadFunction sig targs inst l ho hl hd hp =>
      exact .loadFunction (hop.trans ho) ((z.static_link (kind := .function sig)
        (by rw [hd, ho, hp]; simp [Op.ports]) rfl (by simp) (by rw [hd]; exact ⟨h1, h2, h3⟩)).2 hl) hd hp
    | ext ho hn hl hS => exact .ext (hop.trans ho) hn hl hS
    | external hc hf hl hS =>
      exact .external ((z.calls_iff h1 h2 h3).1 hc) (fun hd => hf ((z.isDefn_iff _).1 hd)) (by rw [hop]; exact hl) hS
    | unknown ho hl hS => exact .unknown (hop.trans ho) (by rw [hop]; exact hl) hS
  · intro hc
    cases hc with
    | makeTuple ho => exact .makeTuple (hop.symm.trans ho)
    | unpackTuple ho hl => exact .unpackTuple (hop.symm.trans ho) hl
    | tag ho => exact .tag (hop.symm.trans ho)
    | @loadConstant t t' l ho hl hd hp hs =>
      have ho := hop.symm.trans ho
      obtain ⟨a1, a2, a3⟩ := ((z.inl.links l).1 hl).1
      have hl' : l ∈ h.links := (z.static_link (kind := .const t) (by rw [hd, ho, hp]; simp [Op.ports]) rfl (by simp)
        (by rw [hd]; exact ⟨h1, h2, h3⟩)).1 hl
      exact .loadConstant ho hl' hd hp ((z.ops_eq a1 a2 a3).symm.trans hs)
    | @loadFunction sig targs inst l ho hl hd hp =>
      have ho := hop.symm.trans ho
      exact .loadFunction ho ((z.static_link (kind := .function sig)
        (by rw [hd, ho, hp]; simp [Op.ports]) rfl (by simp) (by rw [hd]; exact ⟨h1, h2, h3⟩)).1 hl) hd hp
    | ext ho hn hl hS => exact .ext (hop.symm.trans ho) hn hl hS
    | external hc hf hl hS =>
      exact .external ((z.calls_iff h1 h2 h3).2 hc) (fun hd => hf ((z.isDefn_iff _).2 hd)) (by rw [← hop]; exact hl) hS
    | unknown ho hl hS => exact .unknown (hop.symm.trans ho) (by rw [← hop]; exact hl) hS

end Dissolved

end Verif.Patch
