import Verif.Patch.InlineDfgSim

/-!
# Inlining a DFG node: running
-/
namespace Verif.Patch

open Verif.Graph Verif.Ops Verif.Passes Verif.Validate Verif.Dataflow

variable {Meta W E : Type} {C : Validate.Context} {h g : Hugr Ops.Op Meta}

/-! ## What can be used at the start -/

theorem vin_of_see {n Q : Nat} (hp : h.hier.parent n = some Q) (hc : ∀ s, h.ops Q ≠ .cfg s) (A : Nat)
    (hs : See h n A) : VIn h Q A := by
  rcases see_child hp hs with e | hs | hs
  · exact .inl e
  · exact .inr hs
  · obtain ⟨s, hs⟩ := hs.cfg hp
    exact absurd hs (hc s)

/-- The nodes with regions inside are in dataflow regions. -/
theorem parent_not_cfg (hv : Valid C h) {n Q : Nat} (hp : h.hier.parent n = some Q)
    (hd : DataflowChild (h.ops n)) (hc : ∀ t, h.ops n ≠ .const t) (s : Types.Signature) : h.ops Q ≠ .cfg s := by
  intro hs
  have := hv.contains n Q hp
  rw [hs] at this
  cases hn : h.ops n <;> rw [hn] at hd this <;> simp_all [MayContain, DataflowChild]

theorem see_case (hv : Valid C h) {n c Q : Nat} (hp : h.hier.parent n = some Q)
    {rows : List (List Types.Ty)} {other outs : List Types.Ty} (hn : h.ops n = .conditional rows other outs)
    (hc : h.hier.parent c = some n) (A : Nat) (hb : (body (h.ops A)).isSome = true) (hs : See h c A) :
    VIn h Q A := by
  rcases vin_of_see hc (by rw [hn]; simp) A hs with e | hs
  · rw [e, hn] at hb; simp [body] at hb
  · exact vin_of_see hp (parent_not_cfg hv hp (by rw [hn]; trivial) (by rw [hn]; simp)) A hs

theorem see_entry (ht : IsTree h) (hv : Valid C h) {n entry Q : Nat} {rest : List Nat} (hp : h.hier.parent n = some Q)
    {sig : Types.Signature} (hn : h.ops n = .cfg sig) (hc : h.children n = entry :: rest) (A : Nat)
    (hb : (body (h.ops A)).isSome = true) (hs : See h entry A) : VIn h Q A := by
  obtain ⟨h1, _, h3⟩ := Reached.entry ht hn hc
  rcases see_child h1 hs with e | hs | hs
  · rw [e, hn] at hb; simp [body] at hb
  · exact vin_of_see hp (parent_not_cfg hv hp (by rw [hn]; trivial) (by rw [hn]; simp)) A hs
  · exact absurd hs (h3 A)

theorem see_jump (ht : IsTree h) (hv : Valid C h) {l : Link} (hl : l ∈ h.links)
    {x y : List Types.Ty} {w : List (List Types.Ty)} (hop : h.ops l.src = .dataflowBlock x y w)
    (hr : Reached h l.src) (A : Nat) (hb : (body (h.ops A)).isSome = true) (hs : See h l.dst A) :
    VIn h l.src A := by
  obtain ⟨⟨g, sig, _, _, q1, q2, _⟩, h2⟩ := hr.step ht hv hl hop
  obtain ⟨g', q3, q4⟩ := block_link hv hl hop
  rw [q1] at q4; cases q4
  rcases see_child q1 hs with e | hs | hs
  · rw [e, q2] at hb; simp [body] at hb
  · exact .inr ((see_parent q3).trans ht hs)
  · rcases h2 A hs with e | hs
    · exact .inl e
    · exact .inr (.inr ⟨_, .refl _, hs⟩)

theorem defined_step (hv : Valid C h) (ht : IsTree h) {P i o : Nat} (hio : HasIO h P i o)
    (hb : (body (h.ops P)).isSome = true) {ρ σ : Wires W} {vals : List (Val W)} {outs : Nat → List (Val W)}
    (h1 : ∀ n, n ∉ h.children P → σ n = ρ n) (h2 : σ i = outWires vals) (h3 : vals.length = numOuts (h.ops i))
    (h4 : ∀ n, Inner h P i o n → σ n = outWires (outs n))
    (h5 : ∀ n, Inner h P i o n → (outs n).length = numOuts (h.ops n)) (hd : Defined h (See h P) ρ) :
    Defined h (VIn h P) σ := by
  intro n port t A hk hp hV
  have hlt := out_lt (hv.tags n (ht.parent_live _ _ hp).1) hk
  have hget : ∀ vs : List (Val W), vs.length = numOuts (h.ops n) → ∃ v, outWires vs port = some v :=
    fun vs hl => ⟨vs[port]'(by omega), List.getElem?_eq_getElem _⟩
  by_cases hAP : A = P
  · subst hAP
    by_cases hni : n = i
    · subst hni; rw [h2]; exact hget _ h3
    · by_cases hno : n = o
      · subst hno
        obtain ⟨i', o', ti, tj, hio', _, ho⟩ := body_children hv (ht.parent_live _ _ hp).2 hb
        obtain ⟨_, e⟩ := hasIO_fun hio hio'
        rw [e, ho] at hk
        simp [Op.ports] at hk
      · have hin : Inner h A i o n := ⟨(ht.child_iff _ _).2 hp, hni, hno⟩
        rw [h4 n hin]; exact hget _ (h5 n hin)
  · rw [h1 n (fun hm => hAP (by have := (ht.child_iff P n).1 hm; rw [hp] at this; cases this; rfl))]
    exact hd n port t A hk hp (hV.resolve_left hAP)

variable {p d i o : Nat} {sig : Types.Signature} {rest : List Nat}

namespace Dissolved
variable (z : Dissolved C h g p d i o sig rest)
include z

theorem mem_children {P n : Nat} (h1 : P ≠ p) (h2 : P ≠ d) : n ∈ g.children P ↔ h.hier.parent n = some P := by
  rw [z.inl.others P h1 h2]
  exact z.tree.child_iff P n

theorem mem_children_p {n : Nat} : n ∈ g.children p ↔ (h.hier.parent n = some p ∧ n ≠ d) ∨ n ∈ rest := by
  have hdrop : (h.children d).drop 2 = rest := by rw [z.dfg.children]; rfl
  rw [z.inl.inside, hdrop, List.mem_append, List.mem_filter]
  have := z.tree.child_iff p n
  simp only [Hugr.children] at *
  rw [this]
  simp

theorem ne3 {n P : Nat} (hp : h.hier.parent n = some P) (h1 : P ≠ p) (h2 : P ≠ d) : n ≠ d ∧ n ≠ i ∧ n ≠ o := by
  refine ⟨?_, ?_, ?_⟩ <;> rintro rfl
  · rw [z.dfg.parent] at hp; cases hp; exact h1 rfl
  · rw [z.dfg.parentI z.tree] at hp; cases hp; exact h2 rfl
  · rw [z.dfg.parentO z.tree] at hp; cases hp; exact h2 rfl

theorem ne3_op {n : Nat} (h1 : ∀ s, h.ops n ≠ .dfg s) (h2 : ∀ ts, h.ops n ≠ .input ts)
    (h3 : ∀ ts, h.ops n ≠ .output ts) : n ≠ d ∧ n ≠ i ∧ n ≠ o := by
  refine ⟨?_, ?_, ?_⟩ <;> rintro rfl
  · exact h1 _ z.dfg.op
  · exact h2 _ z.dfg.opI
  · exact h3 _ z.dfg.opO

theorem ne3_p {n : Nat} (hp : h.hier.parent n = some p) (hn : n ≠ d) : n ≠ d ∧ n ≠ i ∧ n ≠ o := by
  refine ⟨hn, ?_, ?_⟩ <;> rintro rfl
  · rw [z.dfg.parentI z.tree] at hp; cases hp; exact z.pd rfl
  · rw [z.dfg.parentO z.tree] at hp; cases hp; exact z.pd rfl

theorem ne3_rest {n : Nat} (hn : n ∈ rest) : n ≠ d ∧ n ≠ i ∧ n ≠ o := by
  obtain ⟨h1, h2, h3⟩ := z.mem_rest.1 hn
  refine ⟨?_, h2, h3⟩
  rintro rfl
  rw [z.dfg.parent] at h1; cases h1; exact z.pd rfl

/-- The input and output of the region of the DFG node. -/
theorem io_p : ∃ ip op, HasIO h p ip op ∧ HasIO g p ip op ∧ (∃ ts, h.ops ip = .input ts) ∧
    (∃ ts, h.ops op = .output ts) ∧ ip ≠ d ∧ op ≠ d := by
  obtain ⟨ip, op, ti, tj, hio, h1, h2⟩ := body_children z.valid (z.tree.parent_live _ _ z.dfg.parent).2 z.body_p
  have n1 : ip ≠ d := by rintro rfl; rw [z.dfg.op] at h1; cases h1
  have n2 : op ≠ d := by rintro rfl; rw [z.dfg.op] at h2; cases h2
  refine ⟨ip, op, hio, ?_, ⟨_, h1⟩, ⟨_, h2⟩, n1, n2⟩
  obtain ⟨r, hr⟩ := hio
  refine ⟨r.filter (· ≠ d) ++ (h.children d).drop 2, ?_⟩
  rw [z.inl.inside, hr]
  simp [n1, n2]

theorem hasIO_parent {P a b : Nat} (hio : HasIO h P a b) : h.hier.parent a = some P ∧ h.hier.parent b = some P := by
  obtain ⟨r, hr⟩ := hio
  have hr : h.hier.children P = _ := hr
  exact ⟨(z.tree.child_iff _ _).1 (by rw [hr]; simp), (z.tree.child_iff _ _).1 (by rw [hr]; simp)⟩

theorem block_link_g {l : Link} (hl : l ∈ g.links) (hn : l.dst ≠ d ∧ l.dst ≠ i ∧ l.dst ≠ o)
    (hc : ∀ k ∈ (h.ops l.dst).ports .incoming, k = .controlFlow) : l ∈ h.links := by
  have hk : ∃ kind, ((h.ops l.dst).ports .incoming)[l.dstPort]? = some kind := by
    rcases ((z.inl.links l).1 hl).2.2 with ⟨n0, port0, m1, _⟩ | ⟨⟨_, ho⟩, _⟩
    · obtain ⟨kind, _, k2⟩ := link_kinds z.valid m1
      exact ⟨kind, k2⟩
    · exact ⟨_, ho⟩
  obtain ⟨kind, hk⟩ := hk
  have := hc _ (List.mem_of_getElem? hk)
  subst this
  exact (z.static_link hk rfl (by simp) hn).1 hl

theorem block_link_h {l : Link} (hl : l ∈ h.links) (hn : l.dst ≠ d ∧ l.dst ≠ i ∧ l.dst ≠ o)
    (hc : ∀ k ∈ (h.ops l.dst).ports .incoming, k = .controlFlow) : l ∈ g.links := by
  obtain ⟨kind, _, hk⟩ := link_kinds z.valid hl
  have := hc _ (List.mem_of_getElem? hk)
  subst this
  exact (z.static_link hk rfl (by simp) hn).2 hl

/-! ## Forward -/

/-- A run of the DFG node, with its nodes run in the other Hugr. -/
def DfgRun (g : Hugr Ops.Op Meta) (S : Sem W E) (h : Hugr Ops.Op Meta) (d i o : Nat) (rest : List Nat)
    (ρ : Wires W) (vals outs : List (Val W)) (σ : Wires W) : Prop :=
  (∀ n, h.hier.parent n ≠ some d → σ n = ρ n) ∧ σ i = outWires vals ∧
  (∃ insf outsf : Nat → List (Val W), ∀ n ∈ rest, Ready h σ n (insf n) ∧ σ n = outWires (outsf n) ∧
    (outsf n).length = numOuts (h.ops n) ∧
    ∀ ρ', Agree h d i o (VIn h d) σ ρ' → Runs g S (.node ρ' n (insf n) (outsf n))) ∧
  Ready h σ o outs

omit z in
/-- What a run gives in the other Hugr. -/
def Fwd (g : Hugr Ops.Op Meta) (S : Sem W E) (h : Hugr Ops.Op Meta) (d i o : Nat) (rest : List Nat) :
    Task W → Prop
  | .graph ρ P vals outs σ => (P = d → DfgRun g S h d i o rest ρ vals outs σ) ∧
      (P ≠ d → ∀ ρ', Agree h d i o (See h P) ρ ρ' →
        ∃ σ', Runs g S (.graph ρ' P vals outs σ') ∧ Agree h d i o (VIn h P) σ σ')
  | .node ρ n ins outs => (n = d → ∃ σ, DfgRun g S h d i o rest ρ ins outs σ) ∧
      (n ≠ d → n ≠ i → n ≠ o → ∀ Q, h.hier.parent n = some Q → ∀ ρ', Agree h d i o (VIn h Q) ρ ρ' →
        Runs g S (.node ρ' n ins outs))
  | .loop ρ n ins outs => n ≠ d → n ≠ i → n ≠ o → ∀ ρ', Agree h d i o (See h n) ρ ρ' →
      Runs g S (.loop ρ' n ins outs)
  | .blocks ρ b ins outs => Reached h b → ∀ ρ', Agree h d i o (See h b) ρ ρ' →
      Runs g S (.blocks ρ' b ins outs)

theorem forward {S : Sem W E} {t : Task W} (hr : Runs h S t) : Fwd g S h d i o rest t := by
  induction hr with
  | @graph ρ σ P i0 o0 vals res ins outs hio hout hvals hlen hno hready hval hsize hruns hres ih =>
    obtain ⟨hpi, hpo⟩ := z.hasIO_parent hio
    have hoff : ∀ n, h.hier.parent n ≠ some P → σ n = ρ n := fun n hn =>
      hout n fun hm => hn ((z.tree.child_iff P n).1 hm)
    have hpar : ∀ n, Inner h P i0 o0 n → h.hier.parent n = some P := fun n hn =>
      (z.tree.child_iff P n).1 hn.1
    refine ⟨?_, ?_⟩
    · rintro rfl
      obtain ⟨e1, e2⟩ := hasIO_fun hio ⟨rest, z.dfg.children⟩
      subst e1; subst e2
      refine ⟨hoff, hvals, ⟨ins, outs, fun n hn => ?_⟩, hres⟩
      obtain ⟨m1, m2, m3⟩ := z.mem_rest.1 hn
      have hin : Inner h P i0 o0 n := ⟨(z.tree.child_iff P n).2 m1, m2, m3⟩
      exact ⟨hready n hin, hval n hin, hsize n hin, fun ρ' ha =>
        (ih n hin).2 (z.ne3_rest hn).1 m2 m3 P m1 ρ' ha⟩
    · intro hPd ρ' ha
      by_cases hPp : P = p
      · subst hPp
        obtain ⟨ip, op, hio', hiog, ⟨ti, hti⟩, ⟨tj, htj⟩, n1, n2⟩ := z.io_p
        obtain ⟨e1, e2⟩ := hasIO_fun hio hio'
        subst e1; subst e2
        have hdin : Inner h P i0 o0 d := ⟨(z.tree.child_iff P d).2 z.dfg.parent, n1.symm, n2.symm⟩
        obtain ⟨σd, d1, d2, ⟨insf, outsf, d3⟩, d4⟩ := (ih d hdin).1 rfl
        have hdrest : d ∉ rest := fun hm => (z.ne3_rest hm).1 rfl
        have hprest : ∀ n, h.hier.parent n = some P → n ∉ rest := by
          intro n hn hm
          have := (z.mem_rest.1 hm).1
          rw [hn] at this; cases this; exact hPd rfl
        let σ' : Wires W := fun n => if n ∈ rest then σd n else if h.hier.parent n = some P ∧ n ≠ d then σ n else ρ' n
        have s1 : ∀ n ∈ rest, σ' n = σd n := fun n hn => if_pos hn
        have s2 : ∀ n, h.hier.parent n = some P → n ≠ d → σ' n = σ n := fun n hn hnd => by
          simp only [σ']; rw [if_neg (hprest n hn), if_pos ⟨hn, hnd⟩]
        have s3 : ∀ n, n ∉ rest → ¬ (h.hier.parent n = some P ∧ n ≠ d) → σ' n = ρ' n := fun n hn hm => by
          simp only [σ']; rw [if_neg hn, if_neg hm]
        obtain ⟨a1, a2⟩ := z.agree_inline hoff (fun n hn hm => s3 n hm (fun hh => hn hh.1)) s2 d1 s1 d2
          (hready d hdin) (hval d hdin) d4 ha
        refine ⟨σ', ?_, a1⟩
        have hne_i := z.ne3_p hpi n1
        have hne_o := z.ne3_p hpo n2
        have hinner : ∀ n, Inner g P i0 o0 n → (Inner h P i0 o0 n ∧ n ≠ d) ∨ n ∈ rest := by
          rintro n ⟨hm, b1, b2⟩
          rcases z.mem_children_p.1 hm with ⟨hm, hnd⟩ | hm
          · exact .inl ⟨⟨(z.tree.child_iff P n).2 hm, b1, b2⟩, hnd⟩
          · exact .inr hm
        refine .graph (ins := fun n => if n ∈ rest then insf n else ins n)
          (outs := fun n => if n ∈ rest then outsf n else outs n) hiog ?_ ?_ ?_ ?_ ?_ ?_ ?_ ?_ ?_
        · intro n hn
          rw [z.mem_children_p] at hn
          exact s3 n (fun hm => hn (.inr hm)) (fun hm => hn (.inl hm))
        · rw [s2 i0 hpi n1]; exact hvals
        · rw [z.ops_eq hne_i.1 hne_i.2.1 hne_i.2.2]; exact hlen
        · rw [s2 o0 hpo n2]; exact hno
        · intro n hn
          rcases hinner n hn with ⟨hin, hnd⟩ | hm
          · have hne := z.ne3_p (hpar n hin) hnd
            rw [if_neg (hprest n (hpar n hin))]
            exact (z.ready_iff (hpar n hin) hne.1 hne.2.1 hne.2.2 a1).1 (hready n hin)
          · have hne := z.ne3_rest hm
            rw [if_pos hm]
            exact (z.ready_iff (z.mem_rest.1 hm).1 hne.1 hne.2.1 hne.2.2 a2).1 (d3 n hm).1
        · intro n hn
          rcases hinner n hn with ⟨hin, hnd⟩ | hm
          · rw [if_neg (hprest n (hpar n hin)), s2 n (hpar n hin) hnd]
            exact hval n hin
          · rw [if_pos hm, s1 n hm]
            exact (d3 n hm).2.1
        · intro n hn
          rcases hinner n hn with ⟨hin, hnd⟩ | hm
          · have hne := z.ne3_p (hpar n hin) hnd
            rw [if_neg (hprest n (hpar n hin)), z.ops_eq hne.1 hne.2.1 hne.2.2]
            exact hsize n hin
          · have hne := z.ne3_rest hm
            rw [if_pos hm, z.ops_eq hne.1 hne.2.1 hne.2.2]
            exact (d3 n hm).2.2.1
        · intro n hn
          rcases hinner n hn with ⟨hin, hnd⟩ | hm
          · have hne := z.ne3_p (hpar n hin) hnd
            rw [if_neg (hprest n (hpar n hin)), if_neg (hprest n (hpar n hin))]
            exact (ih n hin).2 hne.1 hne.2.1 hne.2.2 P (hpar n hin) σ' a1
          · rw [if_pos hm, if_pos hm]
            exact (d3 n hm).2.2.2 σ' a2
        · exact (z.ready_iff hpo hne_o.1 hne_o.2.1 hne_o.2.2 a1).1 hres
      · let σ' : Wires W := fun n => if h.hier.parent n = some P then σ n else ρ' n
        have s1 : ∀ n, h.hier.parent n = some P → σ' n = σ n := fun n hn => if_pos hn
        have s2 : ∀ n, h.hier.parent n ≠ some P → σ' n = ρ' n := fun n hn => if_neg hn
        have a1 := z.agree_step hPp hPd hoff s2 s1 ha
        refine ⟨σ', ?_, a1⟩
        have hne_i := z.ne3 hpi hPp hPd
        have hne_o := z.ne3 hpo hPp hPd
        have hinner : ∀ n, Inner g P i0 o0 n → Inner h P i0 o0 n := by
          rintro n ⟨hm, b1, b2⟩
          exact ⟨(z.tree.child_iff P n).2 ((z.mem_children hPp hPd).1 hm), b1, b2⟩
        refine .graph (i := i0) (o := o0) (ins := ins) (outs := outs) ?_ ?_ ?_ ?_ ?_ ?_ ?_ ?_ ?_ ?_
        · obtain ⟨r, hr⟩ := hio
          exact ⟨r, by rw [z.inl.others P hPp hPd]; exact hr⟩
        · intro n hn
          rw [z.mem_children hPp hPd] at hn
          exact s2 n hn
        · rw [s1 i0 hpi]; exact hvals
        · rw [z.ops_eq hne_i.1 hne_i.2.1 hne_i.2.2]; exact hlen
        · rw [s1 o0 hpo]; exact hno
        · intro n hn
          have hin := hinner n hn
          have hne := z.ne3 (hpar n hin) hPp hPd
          exact (z.ready_iff (hpar n hin) hne.1 hne.2.1 hne.2.2 a1).1 (hready n hin)
        · intro n hn
          rw [s1 n (hpar n (hinner n hn))]
          exact hval n (hinner n hn)
        · intro n hn
          have hne := z.ne3 (hpar n (hinner n hn)) hPp hPd
          rw [z.ops_eq hne.1 hne.2.1 hne.2.2]
          exact hsize n (hinner n hn)
        · intro n hn
          have hin := hinner n hn
          have hne := z.ne3 (hpar n hin) hPp hPd
          exact (ih n hin).2 hne.1 hne.2.1 hne.2.2 P (hpar n hin) σ' a1
        · exact (z.ready_iff hpo hne_o.1 hne_o.2.1 hne_o.2.2 a1).1 hres
  | leaf hl =>
    refine ⟨?_, fun h1 h2 h3 Q hp ρ' ha => .leaf ((z.leaf_iff h1 h2 h3).1 hl)⟩
    rintro rfl
    exfalso
    have hop := z.dfg.op
    cases hl with
    | makeTuple ho => rw [hop] at ho; cases ho
    | unpackTuple ho => rw [hop] at ho; cases ho
    | tag ho => rw [hop] at ho; cases ho
    | loadConstant ho => rw [hop] at ho; cases ho
    | loadFunction ho => rw [hop] at ho; cases ho
    | ext ho => rw [hop] at ho; cases ho
    | external hc =>
      cases hc with
      | direct ho => rw [hop] at ho; cases ho
      | indirect ho => rw [hop] at ho; cases ho
    | unknown ho => rw [hop] at ho; cases ho
  | const hop =>
    refine ⟨?_, fun h1 h2 h3 Q hp ρ' ha => .const ((z.ops_eq h1 h2 h3).trans hop)⟩
    rintro rfl
    rw [z.dfg.op] at hop; cases hop
  | @dfg ρ σ n sg ins outs hop hr ih =>
    refine ⟨?_, fun h1 h2 h3 Q hp ρ' ha => ?_⟩
    · rintro rfl
      exact ⟨σ, ih.1 rfl⟩
    · have ha' := ha.mono z.valid (V' := See h n) fun A _ hs =>
        vin_of_see hp (parent_not_cfg z.valid hp (by rw [hop]; trivial) (by rw [hop]; simp)) A hs
      obtain ⟨σ', r, _⟩ := ih.2 h1 ρ' ha'
      exact .dfg ((z.ops_eq h1 h2 h3).trans hop) r
  | @cond ρ σ n c tag rows other ots row elems rst outs hop hc hrow hlen hr ih =>
    refine ⟨(by rintro rfl; rw [z.dfg.op] at hop; cases hop), fun h1 h2 h3 Q hp ρ' ha => ?_⟩
    have hcp : h.hier.parent c = some n := (z.tree.child_iff n c).1 (List.mem_of_getElem? hc)
    have hnp : n ≠ p := by
      rintro rfl
      have := z.body_p
      rw [hop] at this; simp [body] at this
    have hcd : c ≠ d := (z.ne3 hcp hnp h1).1
    obtain ⟨σ', r, _⟩ := ih.2 hcd ρ' (ha.mono z.valid (see_case z.valid hp hop hcp))
    refine .cond ((z.ops_eq h1 h2 h3).trans hop) ?_ hrow hlen r
    rw [z.inl.others n hnp h1]; exact hc
  | @tailLoop ρ n ji jo rst ins outs hop hr ih =>
    refine ⟨(by rintro rfl; rw [z.dfg.op] at hop; cases hop), fun h1 h2 h3 Q hp ρ' ha => ?_⟩
    have ha' := ha.mono z.valid (V' := See h n) fun A _ hs =>
      vin_of_see hp (parent_not_cfg z.valid hp (by rw [hop]; trivial) (by rw [hop]; simp)) A hs
    exact .tailLoop ((z.ops_eq h1 h2 h3).trans hop) (ih h1 h2 h3 ρ' ha')
  | @again ρ σ n ji jo rst ins elems others outs hop hlen hr hr2 ih ih2 =>
    intro h1 h2 h3 ρ' ha
    obtain ⟨σ', r, _⟩ := ih.2 h1 ρ' ha
    exact .again ((z.ops_eq h1 h2 h3).trans hop) hlen r (ih2 h1 h2 h3 ρ' ha)
  | @done ρ σ n ji jo rst ins elems others hop hlen hr ih =>
    intro h1 h2 h3 ρ' ha
    obtain ⟨σ', r, _⟩ := ih.2 h1 ρ' ha
    exact .done ((z.ops_eq h1 h2 h3).trans hop) hlen r
  | @cfg ρ n entry rst sg ins outs hop hc hr ih =>
    refine ⟨(by rintro rfl; rw [z.dfg.op] at hop; cases hop), fun h1 h2 h3 Q hp ρ' ha => ?_⟩
    have hnp : n ≠ p := by rintro rfl; exact z.p_not_cfg sg hop
    refine .cfg ((z.ops_eq h1 h2 h3).trans hop) (rest := rst) ?_ (ih (Reached.entry z.tree hop hc).2.1 ρ'
      (ha.mono z.valid (see_entry z.tree z.valid hp hop hc)))
    rw [z.inl.others n hnp h1]; exact hc
  | @jump ρ σ b tag x other y w rows ww row ins elems others outs l hop hrow hlen hl hsrc hsp hdst hr hr2 ih ih2 =>
    intro hre ρ' ha
    obtain ⟨h1, h2, h3⟩ := z.ne3_op (n := b) (by rw [hop]; simp) (by rw [hop]; simp) (by rw [hop]; simp)
    obtain ⟨g1, g2, g3⟩ := z.ne3_op (n := l.dst) (by rw [hdst]; simp) (by rw [hdst]; simp) (by rw [hdst]; simp)
    obtain ⟨σ', r, a1⟩ := ih.2 h1 ρ' ha
    subst hsrc
    have hj := a1.mono z.valid (see_jump z.tree z.valid hl hop hre)
    refine .jump ((z.ops_eq h1 h2 h3).trans hop) hrow hlen (z.block_link_h hl ⟨g1, g2, g3⟩ ?_) rfl hsp
      ((z.ops_eq g1 g2 g3).trans hdst) r (ih2 (hre.step z.tree z.valid hl hop).1 σ' hj)
    rw [hdst]; simp [Op.ports]
  | @exit ρ σ b tag x other ots rows row ins elems others l hop hrow hlen hl hsrc hsp hdst hr ih =>
    intro hre ρ' ha
    obtain ⟨h1, h2, h3⟩ := z.ne3_op (n := b) (by rw [hop]; simp) (by rw [hop]; simp) (by rw [hop]; simp)
    obtain ⟨g1, g2, g3⟩ := z.ne3_op (n := l.dst) (by rw [hdst]; simp) (by rw [hdst]; simp) (by rw [hdst]; simp)
    obtain ⟨σ', r, a1⟩ := ih.2 h1 ρ' ha
    refine .exit ((z.ops_eq h1 h2 h3).trans hop) hrow hlen (z.block_link_h hl ⟨g1, g2, g3⟩ ?_) hsrc hsp
      ((z.ops_eq g1 g2 g3).trans hdst) r
    rw [hdst]; simp [Op.ports]
  | @call ρ σ n f ins args outs hc hf hlen hr ih =>
    refine ⟨?_, fun h1 h2 h3 Q hp ρ' ha => ?_⟩
    · rintro rfl
      exfalso
      have hop := z.dfg.op
      cases hc with
      | direct ho => rw [hop] at ho; cases ho
      | indirect ho => rw [hop] at ho; cases ho
    · have hfd : f ≠ d := by
        rintro rfl
        obtain ⟨nm, s, hs⟩ := hf
        rw [z.dfg.op] at hs; cases hs
      obtain ⟨σ', r, _⟩ := ih.2 hfd noWires (fun _ _ _ _ _ _ _ _ _ _ => rfl)
      exact .call ((z.calls_iff h1 h2 h3).1 hc) ((z.isDefn_iff f).2 hf)
        (by rw [z.ops_eq h1 h2 h3]; exact hlen) r

/-! ## Backward -/

omit z in
/-- A function can use no values of other regions. -/
theorem see_defn (hv : Valid C h) {f : Nat} (hf : IsDefn h f) (A : Nat) (hb : (body (h.ops A)).isSome = true)
    (hs : See h f A) : False := by
  obtain ⟨nm, sg, hf⟩ := hf
  have hroot : ∀ m, (h.hier.parent m = none ∨ h.ops m = .module) → ¬ See h m A := by
    rintro m hm hs
    have hnone : h.hier.parent m = none := by
      rcases hm with hm | hm
      · exact hm
      · cases hp : h.hier.parent m with
        | none => rfl
        | some k =>
          have := hv.contains m k hp
          rw [hm] at this
          cases hk : h.ops k <;> rw [hk] at this <;> simp_all [MayContain, DataflowChild]
    rcases hs with ⟨q, hq, _⟩ | ⟨a, ha, _, g', _, _, _, _, hga, _⟩
    · rw [hnone] at hq; cases hq
    · rcases above_cases ha with e | ⟨q, hq, _⟩
      · rw [← e, hnone] at hga; cases hga
      · rw [hnone] at hq; cases hq
  cases hp : h.hier.parent f with
  | none => exact hroot f (.inl hp) hs
  | some m =>
    have hm : h.ops m = .module := by
      have := hv.contains f m hp
      rw [hf] at this
      cases hk : h.ops m <;> rw [hk] at this <;> simp_all [MayContain, DataflowChild]
    rcases vin_of_see hp (by rw [hm]; simp) A hs with e | hs
    · rw [e, hm] at hb; simp [body] at hb
    · exact hroot m (.inr hm) hs

/-- What a run in the other Hugr gives. -/
def Bwd (S : Sem W E) (h : Hugr Ops.Op Meta) (d i o : Nat) : Task W → Prop
  | .graph ρ' P vals outs σ' => (body (h.ops P)).isSome = true →
      ∀ ρ, Agree h d i o (See h P) ρ ρ' → Defined h (See h P) ρ →
        ∃ σ, Runs h S (.graph ρ P vals outs σ) ∧ Agree h d i o (VIn h P) σ σ' ∧ Defined h (VIn h P) σ
  | .node ρ' n ins outs => n ≠ d → n ≠ i → n ≠ o → ∀ Q, h.hier.parent n = some Q →
      ∀ ρ, Agree h d i o (VIn h Q) ρ ρ' → Defined h (VIn h Q) ρ → Runs h S (.node ρ n ins outs)
  | .loop ρ' n ins outs => n ≠ d → n ≠ i → n ≠ o → ∀ ρ, Agree h d i o (See h n) ρ ρ' →
      Defined h (See h n) ρ → Runs h S (.loop ρ n ins outs)
  | .blocks ρ' b ins outs => Reached h b → ∀ ρ, Agree h d i o (See h b) ρ ρ' →
      Defined h (See h b) ρ → Runs h S (.blocks ρ b ins outs)

/-- The region of the DFG node. -/
theorem backward_p {S : Sem W E} {ρ' σ' : Wires W} {i0 o0 : Nat} {vals res : List (Val W)}
    {ins outs : Nat → List (Val W)} (hio : HasIO g p i0 o0)
    (hout : ∀ n, n ∉ g.children p → σ' n = ρ' n) (hvals : σ' i0 = outWires vals)
    (hlen : vals.length = numOuts (g.ops i0)) (hno : σ' o0 = outWires [])
    (hready : ∀ n, Inner g p i0 o0 n → Ready g σ' n (ins n))
    (hval : ∀ n, Inner g p i0 o0 n → σ' n = outWires (outs n))
    (hsize : ∀ n, Inner g p i0 o0 n → (outs n).length = numOuts (g.ops n)) (hres : Ready g σ' o0 res)
    (ih : ∀ n, Inner g p i0 o0 n → Bwd S h d i o (.node σ' n (ins n) (outs n)))
    {ρ : Wires W} (ha : Agree h d i o (See h p) ρ ρ') (hd : Defined h (See h p) ρ) :
    ∃ σ, Runs h S (.graph ρ p vals res σ) ∧ Agree h d i o (VIn h p) σ σ' ∧ Defined h (VIn h p) σ := by
  obtain ⟨ip, op, hioh, hiog, ⟨ti, hti⟩, ⟨tj, htj⟩, n1, n2⟩ := z.io_p
  obtain ⟨e1, e2⟩ := hasIO_fun hio hiog
  subst e1; subst e2
  obtain ⟨hpi, hpo⟩ := z.hasIO_parent hioh
  have hne_i := z.ne3_p hpi n1
  have hne_o := z.ne3_p hpo n2
  have hpar : ∀ n, Inner h p i0 o0 n → h.hier.parent n = some p := fun n hn => (z.tree.child_iff p n).1 hn.1
  have hinner : ∀ n, Inner h p i0 o0 n → n ≠ d → Inner g p i0 o0 n := fun n hn hnd =>
    ⟨z.mem_children_p.2 (.inl ⟨hpar n hn, hnd⟩), hn.2.1, hn.2.2⟩
  have hpd := z.pd
  have hprest : ∀ n, h.hier.parent n = some p → n ∉ rest := by
    intro n hn hm
    have := (z.mem_rest.1 hm).1
    rw [hn] at this; cases this; exact hpd rfl
  have hrest : ∀ n ∈ rest, Inner g p i0 o0 n := fun n hn =>
    ⟨z.mem_children_p.2 (.inr hn), fun e => hprest i0 hpi (e ▸ hn), fun e => hprest o0 hpo (e ▸ hn)⟩
  have hdp := z.dfg.parent
  have hdI := z.dfg.parentI z.tree
  have hdO := z.dfg.parentO z.tree
  have hdd : h.hier.parent d ≠ some d := by rw [hdp]; simpa using hpd
  have hdi : d ≠ i := fun e => hdd (by rw [← e] at hdI; exact hdI)
  have hdo : d ≠ o := fun e => hdd (by rw [← e] at hdO; exact hdO)
  have hio_ne : i ≠ o := z.K.io
  -- the wires around, without the outputs of the DFG node
  let σ1 : Wires W := fun n => if h.hier.parent n = some p then σ' n else ρ n
  have s1 : ∀ n, h.hier.parent n = some p → σ1 n = σ' n := fun n hn => if_pos hn
  have s2 : ∀ n, h.hier.parent n ≠ some p → σ1 n = ρ n := fun n hn => if_neg hn
  have hget : ∀ (n port : Nat) (t : Types.Ty) (vs : List (Val W)) (A : Nat),
      ((h.ops n).ports .outgoing)[port]? = some (.value t) → h.hier.parent n = some A →
      vs.length = numOuts (h.ops n) → ∃ v, outWires vs port = some v := by
    intro n port t vs A hk hp hl
    have := out_lt (z.valid.tags n (z.tree.parent_live _ _ hp).1) hk
    exact ⟨vs[port]'(by omega), List.getElem?_eq_getElem _⟩
  have hdef1 : ∀ n port t A, ((h.ops n).ports .outgoing)[port]? = some (.value t) →
      h.hier.parent n = some A → VIn h p A → n ≠ d → ∃ v, σ1 n port = some v := by
    intro n port t A hk hp hV hnd
    by_cases hAp : A = p
    · subst hAp
      rw [s1 n hp]
      by_cases hni : n = i0
      · subst hni
        rw [hvals]
        exact hget n port t vals A hk hp (by rw [hlen, z.ops_eq hne_i.1 hne_i.2.1 hne_i.2.2])
      · by_cases hno' : n = o0
        · subst hno'
          rw [htj] at hk; simp [Op.ports] at hk
        · have hin := hinner n ⟨(z.tree.child_iff A n).2 hp, hni, hno'⟩ hnd
          have hne := z.ne3_p hp hnd
          rw [hval n hin]
          exact hget n port t _ A hk hp (by rw [hsize n hin, z.ops_eq hne.1 hne.2.1 hne.2.2])
    · rw [s2 n (by rw [hp]; simpa using hAp)]
      exact hd n port t A hk hp (hV.resolve_left hAp)
  obtain ⟨dvals, hdv⟩ := ready_of_defined (W := W) z.valid z.K.liveD (ρ := σ1) (by
    rintro l hl hld ⟨t, ht⟩
    obtain ⟨A, Q, hA, hQ, hV⟩ := link_see z.tree z.valid hl ht
    rw [hld, hdp] at hQ; cases hQ
    exact hdef1 _ _ t A ht hA hV (fun e => z.K.noDD l hl e hld))
  -- the wires inside the DFG node
  let σd1 : Wires W := fun n => if n = i then outWires dvals else if n = o then outWires [] else
    if h.hier.parent n = some d then σ' n else σ1 n
  have t1 : σd1 i = outWires dvals := if_pos rfl
  have t2 : σd1 o = outWires [] := by
    simp only [σd1]; rw [if_neg hio_ne.symm]; exact if_pos trivial
  have t3 : ∀ n ∈ rest, σd1 n = σ' n := fun n hn => by
    have hm := z.mem_rest.1 hn
    simp only [σd1]; rw [if_neg hm.2.1, if_neg hm.2.2, if_pos hm.1]
  have t4 : ∀ n, h.hier.parent n ≠ some d → σd1 n = σ1 n := fun n hn => by
    simp only [σd1]
    rw [if_neg (by rintro rfl; exact hn hdI), if_neg (by rintro rfl; exact hn hdO), if_neg hn]
  obtain ⟨douts, hdo'⟩ := ready_of_defined (W := W) z.valid z.K.liveO (ρ := σd1) (by
    rintro l hl hld ⟨t, ht⟩
    obtain ⟨A, Q, hA, hQ, hV⟩ := link_see z.tree z.valid hl ht
    rw [hld, hdO] at hQ; cases hQ
    by_cases hAd : A = d
    · subst hAd
      by_cases hni : l.src = i
      · rw [hni, t1]
        rw [hni] at hA
        refine hget i l.srcPort t dvals A ?_ hA (by rw [hdv.1, z.numI])
        have := ht
        unfold srcKind at this
        rw [hni] at this; exact this
      · have hno' : l.src ≠ o := z.K.noO l hl
        have hm : l.src ∈ rest := z.mem_rest.2 ⟨hA, hni, hno'⟩
        have hne := z.ne3_rest hm
        rw [t3 _ hm, hval _ (hrest _ hm)]
        exact hget _ l.srcPort t _ A ht hA (by rw [hsize _ (hrest _ hm), z.ops_eq hne.1 hne.2.1 hne.2.2])
    · rw [t4 _ (by rw [hA]; simpa using hAd)]
      exact hdef1 _ _ t A ht hA (vin_of_see hdp (fun s => z.p_not_cfg s) A (hV.resolve_left hAd))
        (fun e => z.K.noDO l hl e hld))
  -- with the outputs of the DFG node
  let σ : Wires W := fun n => if n = d then outWires douts else σ1 n
  let σd : Wires W := fun n => if n = d then outWires douts else σd1 n
  have u1 : σ d = outWires douts := if_pos rfl
  have u2 : ∀ n, n ≠ d → σ n = σ1 n := fun n hn => if_neg hn
  have v1 : ∀ n, n ≠ d → σd n = σd1 n := fun n hn => if_neg hn
  have v2 : σd d = outWires douts := if_pos rfl
  have r1 : Ready h σ d dvals := ready_congr (fun l hl hld => u2 _ (fun e => z.K.noDD l hl e hld)) hdv
  have r2 : Ready h σd o douts := ready_congr (fun l hl hld => v1 _ (fun e => z.K.noDO l hl e hld)) hdo'
  have w1 : ∀ n, h.hier.parent n ≠ some p → σ n = ρ n := fun n hn => by
    rw [u2 n (by rintro rfl; exact hn hdp), s2 n hn]
  have w2 : ∀ n, h.hier.parent n ≠ some p → n ∉ rest → σ' n = ρ' n := fun n hn hm =>
    hout n fun hh => (z.mem_children_p.1 hh).elim (fun x => hn x.1) hm
  have w3 : ∀ n, h.hier.parent n = some p → n ≠ d → σ' n = σ n := fun n hn hnd => by
    rw [u2 n hnd, s1 n hn]
  have w4 : ∀ n, h.hier.parent n ≠ some d → σd n = σ n := fun n hn => by
    by_cases hnd : n = d
    · rw [hnd, v2, u1]
    · rw [v1 n hnd, u2 n hnd, t4 n hn]
  have w5 : ∀ n ∈ rest, σ' n = σd n := fun n hn => by
    rw [v1 n (z.ne3_rest hn).1, t3 n hn]
  have w6 : σd i = outWires dvals := by rw [v1 i hdi.symm, t1]
  have w7 : σd o = outWires [] := by rw [v1 o hdo.symm, t2]
  obtain ⟨a1, a2⟩ := z.agree_inline w1 w2 w3 w4 w5 w6 r1 u1 r2 ha
  have hdsize : douts.length = numOuts (h.ops d) := by rw [r2.1, z.numO]
  have hdef : Defined h (VIn h p) σ := by
    refine defined_step z.valid z.tree hioh z.body_p (vals := vals)
      (outs := fun n => if n = d then douts else outs n) ?_ ?_ ?_ ?_ ?_ hd
    · exact fun n hn => w1 n fun hh => hn ((z.tree.child_iff p n).2 hh)
    · rw [← w3 i0 hpi n1, hvals]
    · rw [hlen, z.ops_eq hne_i.1 hne_i.2.1 hne_i.2.2]
    · intro n hn
      by_cases hnd : n = d
      · rw [if_pos hnd, hnd, u1]
      · rw [if_neg hnd, ← w3 n (hpar n hn) hnd, hval n (hinner n hn hnd)]
    · intro n hn
      by_cases hnd : n = d
      · rw [if_pos hnd, hnd, hdsize]
      · have hne := z.ne3_p (hpar n hn) hnd
        rw [if_neg hnd, hsize n (hinner n hn hnd), z.ops_eq hne.1 hne.2.1 hne.2.2]
  have hioD : HasIO h d i o := ⟨rest, z.dfg.children⟩
  have hmemD : ∀ n, Inner h d i o n → n ∈ rest := fun n hn =>
    z.mem_rest.2 ⟨(z.tree.child_iff d n).1 hn.1, hn.2.1, hn.2.2⟩
  have hoffD : ∀ n, n ∉ h.children d → σd n = σ n := fun n hn =>
    w4 n fun hh => hn ((z.tree.child_iff d n).2 hh)
  have hsizeD : ∀ n, Inner h d i o n → (outs n).length = numOuts (h.ops n) := fun n hn => by
    have hne := z.ne3_rest (hmemD n hn)
    rw [hsize n (hrest n (hmemD n hn)), z.ops_eq hne.1 hne.2.1 hne.2.2]
  have hvalD : ∀ n, Inner h d i o n → σd n = outWires (outs n) := fun n hn => by
    rw [← w5 n (hmemD n hn), hval n (hrest n (hmemD n hn))]
  have hdefD : Defined h (VIn h d) σd := by
    refine defined_step z.valid z.tree hioD (by rw [z.dfg.op]; rfl) (vals := dvals) (outs := outs)
      hoffD w6 (by rw [r1.1, z.numI]) hvalD hsizeD ?_
    exact hdef.mono z.valid fun A _ hs => vin_of_see hdp (fun s => z.p_not_cfg s) A hs
  have hrunD : Runs h S (.node σ d dvals douts) := by
    refine .dfg z.dfg.op (σ := σd) (.graph (ins := ins) (outs := outs) hioD hoffD w6
      (by rw [r1.1, z.numI]) w7 ?_ hvalD hsizeD ?_ r2)
    · intro n hn
      have hm := hmemD n hn
      have hne := z.ne3_rest hm
      exact (z.ready_iff (z.mem_rest.1 hm).1 hne.1 hne.2.1 hne.2.2 a2).2 (hready n (hrest n hm))
    · intro n hn
      have hm := hmemD n hn
      have hne := z.ne3_rest hm
      exact ih n (hrest n hm) hne.1 hne.2.1 hne.2.2 d (z.mem_rest.1 hm).1 σd a2 hdefD
  refine ⟨σ, ?_, a1, hdef⟩
  refine .graph (ins := fun n => if n = d then dvals else ins n)
    (outs := fun n => if n = d then douts else outs n) hioh ?_ ?_ ?_ ?_ ?_ ?_ ?_ ?_ ?_
  · exact fun n hn => w1 n fun hh => hn ((z.tree.child_iff p n).2 hh)
  · rw [← w3 i0 hpi n1, hvals]
  · rw [hlen, z.ops_eq hne_i.1 hne_i.2.1 hne_i.2.2]
  · rw [← w3 o0 hpo n2, hno]
  · intro n hn
    by_cases hnd : n = d
    · rw [if_pos hnd, hnd]; exact r1
    · have hne := z.ne3_p (hpar n hn) hnd
      rw [if_neg hnd]
      exact (z.ready_iff (hpar n hn) hne.1 hne.2.1 hne.2.2 a1).2 (hready n (hinner n hn hnd))
  · intro n hn
    by_cases hnd : n = d
    · rw [if_pos hnd, hnd, u1]
    · rw [if_neg hnd, ← w3 n (hpar n hn) hnd, hval n (hinner n hn hnd)]
  · intro n hn
    by_cases hnd : n = d
    · rw [if_pos hnd, hnd, hdsize]
    · have hne := z.ne3_p (hpar n hn) hnd
      rw [if_neg hnd, hsize n (hinner n hn hnd), z.ops_eq hne.1 hne.2.1 hne.2.2]
  · intro n hn
    by_cases hnd : n = d
    · rw [if_pos hnd, if_pos hnd, hnd]; exact hrunD
    · have hne := z.ne3_p (hpar n hn) hnd
      rw [if_neg hnd, if_neg hnd]
      exact ih n (hinner n hn hnd) hne.1 hne.2.1 hne.2.2 p (hpar n hn) σ a1 hdef
  · exact (z.ready_iff hpo hne_o.1 hne_o.2.1 hne_o.2.2 a1).2 hres

theorem op_ne {n : Nat} {op : Ops.Op} (hop : g.ops n = op) (hm : op ≠ .module) : n ≠ d ∧ n ≠ i ∧ n ≠ o := by
  refine ⟨?_, ?_, ?_⟩ <;> rintro rfl <;> refine hm ?_ <;> rw [← hop]
  · exact z.inl.forgotten _ (.inl rfl)
  · exact z.inl.forgotten _ (.inr (.inl rfl))
  · exact z.inl.forgotten _ (.inr (.inr rfl))

theorem backward {S : Sem W E} {t : Task W} (hr : Runs g S t) : Bwd S h d i o t := by
  induction hr with
  | @graph ρ' σ' P i0 o0 vals res ins outs hio hout hvals hlen hno hready hval hsize hruns hres ih =>
    intro hb ρ ha hd
    have hPd : P ≠ d := by
      rintro rfl
      obtain ⟨r, hr⟩ := hio
      rw [z.inl.gone] at hr; cases hr
    by_cases hPp : P = p
    · subst hPp
      exact z.backward_p hio hout hvals hlen hno hready hval hsize hres ih ha hd
    · have hioh : HasIO h P i0 o0 := by
        obtain ⟨r, hr⟩ := hio
        exact ⟨r, by rw [← z.inl.others P hPp hPd]; exact hr⟩
      obtain ⟨hpi, hpo⟩ := z.hasIO_parent hioh
      have hne_i := z.ne3 hpi hPp hPd
      have hne_o := z.ne3 hpo hPp hPd
      have hpar : ∀ n, Inner h P i0 o0 n → h.hier.parent n = some P := fun n hn => (z.tree.child_iff P n).1 hn.1
      have hinner : ∀ n, Inner h P i0 o0 n → Inner g P i0 o0 n := fun n hn =>
        ⟨(z.mem_children hPp hPd).2 (hpar n hn), hn.2.1, hn.2.2⟩
      let σ : Wires W := fun n => if h.hier.parent n = some P then σ' n else ρ n
      have s1 : ∀ n, h.hier.parent n = some P → σ n = σ' n := fun n hn => if_pos hn
      have s2 : ∀ n, h.hier.parent n ≠ some P → σ n = ρ n := fun n hn => if_neg hn
      have s3 : ∀ n, h.hier.parent n ≠ some P → σ' n = ρ' n := fun n hn =>
        hout n fun hm => hn ((z.mem_children hPp hPd).1 hm)
      have a1 := z.agree_step hPp hPd s2 s3 (fun n hn => (s1 n hn).symm) ha
      have hoff : ∀ n, n ∉ h.children P → σ n = ρ n := fun n hn =>
        s2 n fun hh => hn ((z.tree.child_iff P n).2 hh)
      have hsz : ∀ n, Inner h P i0 o0 n → (outs n).length = numOuts (h.ops n) := fun n hn => by
        have hne := z.ne3 (hpar n hn) hPp hPd
        rw [hsize n (hinner n hn), z.ops_eq hne.1 hne.2.1 hne.2.2]
      have hvl : ∀ n, Inner h P i0 o0 n → σ n = outWires (outs n) := fun n hn => by
        rw [s1 n (hpar n hn), hval n (hinner n hn)]
      have hvi : σ i0 = outWires vals := by rw [s1 i0 hpi, hvals]
      have hli : vals.length = numOuts (h.ops i0) := by
        rw [hlen, z.ops_eq hne_i.1 hne_i.2.1 hne_i.2.2]
      have hdef := defined_step z.valid z.tree hioh hb hoff hvi hli hvl hsz hd
      refine ⟨σ, .graph (ins := ins) (outs := outs) hioh hoff hvi hli ?_ ?_ hvl hsz ?_ ?_, a1, hdef⟩
      · rw [s1 o0 hpo, hno]
      · intro n hn
        have hne := z.ne3 (hpar n hn) hPp hPd
        exact (z.ready_iff (hpar n hn) hne.1 hne.2.1 hne.2.2 a1).2 (hready n (hinner n hn))
      · intro n hn
        have hne := z.ne3 (hpar n hn) hPp hPd
        exact ih n (hinner n hn) hne.1 hne.2.1 hne.2.2 P (hpar n hn) σ a1 hdef
      · exact (z.ready_iff hpo hne_o.1 hne_o.2.1 hne_o.2.2 a1).2 hres
  | leaf hl =>
    exact fun h1 h2 h3 Q hp ρ ha hd => .leaf ((z.leaf_iff h1 h2 h3).2 hl)
  | const hop =>
    exact fun h1 h2 h3 Q hp ρ ha hd => .const ((z.ops_eq h1 h2 h3).symm.trans hop)
  | @dfg ρ' σ' n sg ins outs hop hr ih =>
    intro h1 h2 h3 Q hp ρ ha hd
    have hop' := (z.ops_eq h1 h2 h3).symm.trans hop
    have hm : ∀ A, (body (h.ops A)).isSome = true → See h n A → VIn h Q A := fun A _ hs =>
      vin_of_see hp (parent_not_cfg z.valid hp (by rw [hop']; trivial) (by rw [hop']; simp)) A hs
    obtain ⟨σ, r, _⟩ := ih (by rw [hop']; rfl) ρ (ha.mono z.valid hm) (hd.mono z.valid hm)
    exact .dfg hop' r
  | @cond ρ' σ' n c tag rows other ots row elems rst outs hop hc hrow hlen hr ih =>
    intro h1 h2 h3 Q hp ρ ha hd
    have hop' := (z.ops_eq h1 h2 h3).symm.trans hop
    have hnp : n ≠ p := by
      rintro rfl
      have := z.body_p
      rw [hop'] at this; simp [body] at this
    rw [z.inl.others n hnp h1] at hc
    have hcp : h.hier.parent c = some n := (z.tree.child_iff n c).1 (List.mem_of_getElem? hc)
    have hm := see_case z.valid hp hop' hcp
    have hb : (body (h.ops c)).isSome = true := by
      have := z.valid.contains c n hcp
      rw [hop'] at this
      cases hk : h.ops c <;> rw [hk] at this <;> simp_all [MayContain, body]
    obtain ⟨σ, r, _⟩ := ih hb ρ (ha.mono z.valid hm) (hd.mono z.valid hm)
    exact .cond hop' hc hrow hlen r
  | @tailLoop ρ' n ji jo rst ins outs hop hr ih =>
    intro h1 h2 h3 Q hp ρ ha hd
    have hop' := (z.ops_eq h1 h2 h3).symm.trans hop
    have hm : ∀ A, (body (h.ops A)).isSome = true → See h n A → VIn h Q A := fun A _ hs =>
      vin_of_see hp (parent_not_cfg z.valid hp (by rw [hop']; trivial) (by rw [hop']; simp)) A hs
    exact .tailLoop hop' (ih h1 h2 h3 ρ (ha.mono z.valid hm) (hd.mono z.valid hm))
  | @again ρ' σ' n ji jo rst ins elems others outs hop hlen hr hr2 ih ih2 =>
    intro h1 h2 h3 ρ ha hd
    have hop' := (z.ops_eq h1 h2 h3).symm.trans hop
    obtain ⟨σ, r, _⟩ := ih (by rw [hop']; rfl) ρ ha hd
    exact .again hop' hlen r (ih2 h1 h2 h3 ρ ha hd)
  | @done ρ' σ' n ji jo rst ins elems others hop hlen hr ih =>
    intro h1 h2 h3 ρ ha hd
    have hop' := (z.ops_eq h1 h2 h3).symm.trans hop
    obtain ⟨σ, r, _⟩ := ih (by rw [hop']; rfl) ρ ha hd
    exact .done hop' hlen r
  | @cfg ρ' n entry rst sg ins outs hop hc hr ih =>
    intro h1 h2 h3 Q hp ρ ha hd
    have hop' := (z.ops_eq h1 h2 h3).symm.trans hop
    have hnp : n ≠ p := by rintro rfl; exact z.p_not_cfg sg hop'
    rw [z.inl.others n hnp h1] at hc
    have hm := see_entry z.tree z.valid hp hop' hc
    exact .cfg hop' hc (ih (Reached.entry z.tree hop' hc).2.1 ρ (ha.mono z.valid hm) (hd.mono z.valid hm))
  | @jump ρ' σ' b tag x other y w rows ww row ins elems others outs l hop hrow hlen hl hsrc hsp hdst hr hr2 ih ih2 =>
    intro hre ρ ha hd
    obtain ⟨h1, h2, h3⟩ := z.op_ne hop (by simp)
    obtain ⟨g1, g2, g3⟩ := z.op_ne hdst (by simp)
    have hop' := (z.ops_eq h1 h2 h3).symm.trans hop
    have hdst' := (z.ops_eq g1 g2 g3).symm.trans hdst
    have hl' := z.block_link_g hl ⟨g1, g2, g3⟩ (by rw [hdst']; simp [Op.ports])
    obtain ⟨σ, r, a1, d1⟩ := ih (by rw [hop']; rfl) ρ ha hd
    subst hsrc
    have hm := see_jump z.tree z.valid hl' hop' hre
    exact .jump hop' hrow hlen hl' rfl hsp hdst' r (ih2 (hre.step z.tree z.valid hl' hop').1 σ
      (a1.mono z.valid hm) (d1.mono z.valid hm))
  | @exit ρ' σ' b tag x other ots rows row ins elems others l hop hrow hlen hl hsrc hsp hdst hr ih =>
    intro hre ρ ha hd
    obtain ⟨h1, h2, h3⟩ := z.op_ne hop (by simp)
    obtain ⟨g1, g2, g3⟩ := z.op_ne hdst (by simp)
    have hop' := (z.ops_eq h1 h2 h3).symm.trans hop
    have hdst' := (z.ops_eq g1 g2 g3).symm.trans hdst
    have hl' := z.block_link_g hl ⟨g1, g2, g3⟩ (by rw [hdst']; simp [Op.ports])
    obtain ⟨σ, r, a1, d1⟩ := ih (by rw [hop']; rfl) ρ ha hd
    exact .exit hop' hrow hlen hl' hsrc hsp hdst' r
  | @call ρ' σ' n f ins args outs hc hf hlen hr ih =>
    intro h1 h2 h3 Q hp ρ ha hd
    have hf' := (z.isDefn_iff f).1 hf
    obtain ⟨nm, sg, hfo⟩ := id hf'
    obtain ⟨σ, r, _⟩ := ih (by rw [hfo]; rfl) noWires (fun _ _ _ _ _ _ _ _ _ _ => rfl)
      (fun n port t A h1 h2 h3 => (see_defn z.valid hf' A (region_of_value z.valid h2 h1) h3).elim)
    exact .call ((z.calls_iff h1 h2 h3).2 hc) hf' (by rw [← z.ops_eq h1 h2 h3]; exact hlen) r

/-- The functions return the same. -/
theorem returns_iff {S : Sem W E} {f : Nat} {args outs : List (Val W)} :
    Returns h S f args outs ↔ Returns g S f args outs := by
  constructor
  · rintro ⟨hf, σ, hr⟩
    obtain ⟨nm, sg, hfo⟩ := id hf
    have hfd : f ≠ d := by rintro rfl; rw [z.dfg.op] at hfo; cases hfo
    obtain ⟨σ', r, _⟩ := (z.forward hr).2 hfd noWires (fun _ _ _ _ _ _ _ _ _ _ => rfl)
    exact ⟨(z.isDefn_iff f).2 hf, σ', r⟩
  · rintro ⟨hf, σ', hr⟩
    have hf' := (z.isDefn_iff f).1 hf
    obtain ⟨nm, sg, hfo⟩ := id hf'
    obtain ⟨σ, r, _⟩ := z.backward hr (by rw [hfo]; rfl) noWires (fun _ _ _ _ _ _ _ _ _ _ => rfl)
      (fun n port t A h1 h2 h3 => (see_defn z.valid hf' A (region_of_value z.valid h2 h1) h3).elim)
    exact ⟨hf', σ, r⟩

end Dissolved

end Verif.Patch
