import Verif.Patch.Cover
import Verif.Patch.PeelSpec

/-!
# A loop and its first iteration

A Hugr `g` in which the loop `n` of `h` is a graph: the body of the loop, followed by a conditional that
stops or runs a copy of the loop. Running `g` is running `h`.
-/
namespace Verif.Patch

open Verif.Graph Verif.Ops Verif.Validate Verif.Dataflow

variable {Meta W E : Type} {h g : Hugr Ops.Op Meta}

/-- The children of `x` stand for the children of a node of `h`. -/
def PeelNodes.Body (P : PeelNodes) (T : Nat → Prop) (x : Nat) : Prop := (T x ∧ x ≠ P.o ∧ x ≠ P.n) ∨ x = P.copy

/-- The node of `h` whose children the children of `x` stand for. -/
def PeelNodes.body (P : PeelNodes) (π : Nat → Nat) (x : Nat) : Nat := if x = P.copy then P.n else π x

/-- The links to `t` come from the ports of `s`, in order. -/
structure FedBy (g : Hugr Ops.Op Meta) (s t : Nat) : Prop where
  all : ∀ p, p < numIns (g.ops t) → ⟨s, p, t, p⟩ ∈ g.links
  only : ∀ l ∈ g.links, l.dst = t → l.dstPort < numIns (g.ops t) → l.src = s ∧ l.srcPort = l.dstPort

/-- `g` is `h` with the loop peeled. Each node of `g` for which `T` holds stands for a node of `h`. -/
structure Peels (h g : Hugr Ops.Op Meta) (P : PeelNodes) (ji jo rest : List Types.Ty) (T : Nat → Prop)
    (π : Nat → Nat) : Prop where
  tree : IsTree g
  treeH : IsTree h
  opLoop : h.ops P.n = .tailLoop ji jo rest
  opOut : numIns (h.ops P.o) = rest.length + 1
  opOut0 : numOuts (h.ops P.o) = 0
  opDfg : g.ops P.n = .dfg ⟨ji ++ rest, jo ++ rest⟩
  opCond : g.ops P.o = .conditional [ji, jo] rest (jo ++ rest)
  opCopy : g.ops P.copy = .tailLoop ji jo rest
  opNew : g.ops P.out = .output (jo ++ rest) ∧ g.ops P.againIn = .input (ji ++ rest) ∧
    g.ops P.againOut = .output (jo ++ rest) ∧ g.ops P.stopIn = .input (jo ++ rest) ∧
    g.ops P.stopOut = .output (jo ++ rest)
  kidsH : ∃ cs, h.children P.n = P.i :: P.o :: cs ∧ g.children P.n = P.i :: P.out :: P.o :: cs
  kidsO : g.children P.o = [P.again, P.stop]
  kidsAgain : g.children P.again = [P.againIn, P.againOut, P.copy]
  kidsStop : g.children P.stop = [P.stopIn, P.stopOut]
  old : ∀ x, x = P.n ∨ x ∈ h.children P.n → T x ∧ π x = x
  onlyN : ∀ x, T x → π x = P.n → x = P.n
  news : ∀ x ∈ P.news, ¬ T x
  kids : ∀ x, P.Body T x → (g.children x).map π = h.children (P.body π x)
  kidsT : ∀ x c, P.Body T x → c ∈ g.children x → T c ∧ c ≠ P.o
  inj : ∀ x a b, P.Body T x → a ∈ g.children x → b ∈ g.children x → π a = π b → a = b
  same : ∀ x, T x → x ≠ P.n → x ≠ P.o → g.ops x = h.ops (π x)
  link : ∀ l ∈ g.links, T l.dst → (T l.src ∧ l.src ≠ P.o) ∧ ⟨π l.src, l.srcPort, π l.dst, l.dstPort⟩ ∈ h.links
  lift : ∀ x port s sp, T x → ⟨s, sp, π x, port⟩ ∈ h.links → ∃ s', ⟨s', sp, x, port⟩ ∈ g.links ∧ π s' = s
  scope : ∀ x q, ∀ l ∈ g.links, P.Body T x →
    (q = x ∨ x ∈ g.children q ∧ ∃ x1 x2 x3, g.ops x = .dataflowBlock x1 x2 x3) → T l.dst → VLink g l →
    Inside g q l.dst → π l.src ∈ h.children (P.body π x) → l.src ∈ g.children x
  scopeN : ∀ c ∈ h.children P.n, ∀ l ∈ g.links, T l.dst → l.dst = c ∨ c ≠ P.o ∧ Inside g c l.dst →
    π l.src ∈ h.children P.n → l.src ∈ h.children P.n
  scopeO : ∀ l ∈ g.links, T l.dst → VLink g l → Inside g P.o l.dst → l.src ∉ g.children P.n
  feedOut : FedBy g P.o P.out
  feedAgain : FedBy g P.againIn P.copy
  feedAgain' : FedBy g P.copy P.againOut
  feedStop : FedBy g P.stopIn P.stopOut
  defn : ∀ f, IsDefn g f ↔ IsDefn h f
  defnD : ∀ f, IsDefn g f → T f ∧ π f = f
  fixed : ∀ l ∈ g.links, T l.dst →
    ((∃ sig targs inst, g.ops l.dst = .call sig targs inst) ∨
      ∃ sig targs inst, g.ops l.dst = .loadFunction sig targs inst) →
    l.dstPort = numIns (g.ops l.dst) → π l.src = l.src
  arms : ∀ x c, T x → (∃ x1 x2 x3, g.ops x = .conditional x1 x2 x3) → c ∈ g.children x → c ≠ P.n
  flow : ∀ l ∈ g.links, (∃ x y z, g.ops l.src = .dataflowBlock x y z) →
    ∃ q, g.hier.parent l.src = some q ∧ g.hier.parent l.dst = some q
  flowH : ∀ l ∈ h.links, (∃ x y z, h.ops l.src = .dataflowBlock x y z) →
    ∃ q, h.hier.parent l.src = some q ∧ h.hier.parent l.dst = some q

/-- The wires that are used inside `p` are the same. -/
def PeelAgree (g : Hugr Ops.Op Meta) (T : Nat → Prop) (π : Nat → Nat) (p : Nat) (ρ' ρ : Wires W) : Prop :=
  ∀ l ∈ g.links, T l.dst → VLink g l → Inside g p l.dst → ρ' l.src = ρ (π l.src)

theorem filter_value (l : List Types.Ty) : (l.map Kind.value).filter Kind.isValue = l.map Kind.value :=
  List.filter_eq_self.2 (by simp [Kind.isValue])

theorem num_loop (ji jo rest : List Types.Ty) : numIns (.tailLoop ji jo rest) = (ji ++ rest).length ∧
    numOuts (.tailLoop ji jo rest) = (jo ++ rest).length := by
  simp [numIns, numOuts, Op.ports, Kind.isValue, filter_value]

theorem num_cond (rows : List (List Types.Ty)) (other outs : List Types.Ty) :
    numIns (.conditional rows other outs) = other.length + 1 ∧ numOuts (.conditional rows other outs) = outs.length := by
  constructor
  · have : Kind.isValue (.value (sumOf rows)) = true := rfl
    simp [numIns, Op.ports, Kind.isValue, filter_value, List.filter_cons_of_pos this]
  · simp [numOuts, Op.ports, Kind.isValue, filter_value]

theorem num_input (row : List Types.Ty) : numOuts (.input row) = row.length := by
  simp [numOuts, Op.ports, Kind.isValue, filter_value]

theorem num_output (row : List Types.Ty) : numIns (.output row) = row.length := by
  simp [numIns, Op.ports, Kind.isValue, filter_value]

/-- What arrives is what is sent. -/
theorem FedBy.eq {s t : Nat} (hf : FedBy g s t) {σ : Wires W} {us vs : List (Val W)} (hs : σ s = outWires us)
    (hl : us.length = numIns (g.ops t)) (hr : Ready g σ t vs) : vs = us := by
  apply List.ext_getElem?
  intro k
  cases hv : vs[k]? with
  | none =>
    rw [List.getElem?_eq_none_iff, hr.1, ← hl, ← List.getElem?_eq_none_iff] at hv
    exact hv.symm
  | some v =>
    obtain ⟨l, hm, h1, h2, h3⟩ := hr.2 k v hv
    have hlt : k < numIns (g.ops t) := by rw [← hr.1]; exact (List.getElem?_eq_some_iff.1 hv).1
    obtain ⟨h4, h5⟩ := hf.only l hm h1 (by rw [h2]; exact hlt)
    rw [h4, h5, h2, hs] at h3
    exact h3.symm

theorem FedBy.ready {s t : Nat} (hf : FedBy g s t) {σ : Wires W} {us : List (Val W)} (hs : σ s = outWires us)
    (hl : us.length = numIns (g.ops t)) : Ready g σ t us := by
  refine ⟨hl, fun k v hv => ?_⟩
  have hlt : k < numIns (g.ops t) := by rw [← hl]; exact (List.getElem?_eq_some_iff.1 hv).1
  exact ⟨_, hf.all k hlt, rfl, rfl, by rw [hs]; exact hv⟩

namespace Peels

variable {P : PeelNodes} {ji jo rest : List Types.Ty} {T : Nat → Prop} {π : Nat → Nat}
  (z : Peels h g P ji jo rest T π) {S : Sem W E}
include z

theorem child {p c : Nat} (hc : c ∈ g.children p) : g.hier.parent c = some p := (z.tree.child_iff _ _).1 hc

theorem inside {p c : Nat} (hc : c ∈ g.children p) : Inside g p c := .child (z.child hc)

theorem agree_child {p c : Nat} (hc : c ∈ g.children p) {ρ' ρ : Wires W} (ha : PeelAgree g T π p ρ' ρ) :
    PeelAgree g T π c ρ' ρ := fun l hl ht hv hi => ha l hl ht hv ((z.inside hc).trans hi)

theorem Tn : T P.n ∧ π P.n = P.n := z.old _ (.inl rfl)

theorem o_kid : P.o ∈ h.children P.n := by
  obtain ⟨cs, h1, _⟩ := z.kidsH
  rw [h1]; simp

theorem To : T P.o ∧ π P.o = P.o := z.old _ (.inr z.o_kid)

theorem o_ne_n : P.o ≠ P.n := by
  intro e
  have := z.opCond
  rw [e, z.opDfg] at this; cases this

theorem copy_ne : ¬ T P.copy := z.news _ (by simp [PeelNew.news])

theorem body_copy : P.body π P.copy = P.n := if_pos rfl

theorem body_T {x : Nat} (hx : T x) : P.body π x = π x := if_neg fun (e : x = P.copy) => z.copy_ne (e ▸ hx)

theorem numsI {x : Nat} (hx : T x) : numIns (h.ops (π x)) = numIns (g.ops x) := by
  by_cases hn : x = P.n
  · subst hn
    rw [z.Tn.2, z.opLoop, z.opDfg, (num_loop ..).1, (num_dfg _).1]
  · by_cases ho : x = P.o
    · subst ho
      rw [z.To.2, z.opOut, z.opCond, (num_cond ..).1]
    · rw [z.same x hx hn ho]

theorem numsO {x : Nat} (hx : T x) (ho : x ≠ P.o) : numOuts (h.ops (π x)) = numOuts (g.ops x) := by
  by_cases hn : x = P.n
  · subst hn
    rw [z.Tn.2, z.opLoop, z.opDfg, (num_loop ..).2, (num_dfg _).2]
  · rw [z.same x hx hn ho]

theorem same_g {x : Nat} (hT : T x) (ho : x ≠ P.o) (hn : ∀ sig, g.ops x ≠ .dfg sig) : g.ops x = h.ops (π x) :=
  z.same x hT (fun e => hn _ (e ▸ z.opDfg)) ho

theorem same_h {x : Nat} (hT : T x) (ho : x ≠ P.o) (hn : ∀ a b c, h.ops (π x) ≠ .tailLoop a b c) : g.ops x = h.ops (π x) := by
  refine z.same x hT (fun e => ?_) ho
  subst e
  rw [z.Tn.2] at hn
  exact hn _ _ _ z.opLoop

theorem ready_gh {x : Nat} (hT : T x) {σ' σ : Wires W}
    (ha : ∀ l ∈ g.links, VLink g l → l.dst = x → σ' l.src = σ (π l.src)) {ins : List (Val W)}
    (hr : Ready g σ' x ins) : Ready h σ (π x) ins := by
  obtain ⟨h1, h2⟩ := hr
  refine ⟨by rw [h1, z.numsI hT], fun i v hv => ?_⟩
  obtain ⟨l, hl, rfl, rfl, hv'⟩ := h2 i v hv
  have hlt : l.dstPort < numIns (g.ops l.dst) := by
    rw [← h1]; exact (List.getElem?_eq_some_iff.1 hv).1
  refine ⟨_, (z.link l hl hT).2, rfl, rfl, ?_⟩
  rw [← ha l hl hlt rfl]; exact hv'

theorem ready_hg {x : Nat} (hT : T x) {σ' σ : Wires W}
    (ha : ∀ l ∈ g.links, VLink g l → l.dst = x → σ' l.src = σ (π l.src)) {ins : List (Val W)}
    (hr : Ready h σ (π x) ins) : Ready g σ' x ins := by
  obtain ⟨h1, h2⟩ := hr
  rw [z.numsI hT] at h1
  refine ⟨h1, fun i v hv => ?_⟩
  obtain ⟨l, hl, e1, e2, hv'⟩ := h2 i v hv
  have hlt : i < numIns (g.ops x) := by
    rw [← h1]; exact (List.getElem?_eq_some_iff.1 hv).1
  obtain ⟨s, sp, t, tp⟩ := l
  simp only [] at e1 e2 hv'
  subst e1; subst e2
  obtain ⟨s', hl', e⟩ := z.lift x tp s sp hT hl
  refine ⟨_, hl', rfl, rfl, ?_⟩
  rw [ha _ hl' hlt rfl, e]; exact hv'

/-- The wires after running a graph. -/
theorem agree_after {p q : Nat} (hB : P.Body T p)
    (hq : q = p ∨ p ∈ g.children q ∧ ∃ x y z, g.ops p = .dataflowBlock x y z)
    {ρ' ρ σ' σ : Wires W} (ha : PeelAgree g T π q ρ' ρ) (h1 : ∀ m ∈ g.children p, σ' m = σ (π m))
    (h2 : ∀ n, n ∉ g.children p → σ' n = ρ' n) (h3 : ∀ n, n ∉ h.children (P.body π p) → σ n = ρ n) :
    PeelAgree g T π q σ' σ := by
  intro l hl ht hv hi
  by_cases hm : l.src ∈ g.children p
  · exact h1 _ hm
  · rw [h2 _ hm, h3, ha l hl ht hv hi]
    exact fun hc => hm (z.scope p q l hl hB hq ht hv hi hc)

/-- Functions keep their bodies. -/
theorem defn_body {f : Nat} (hd : IsDefn g f) : P.Body T f := by
  refine .inl ⟨(z.defnD f hd).1, ?_, ?_⟩ <;> rintro rfl <;> obtain ⟨_, _, e⟩ := hd
  · rw [z.opCond] at e; cases e
  · rw [z.opDfg] at e; cases e

/-! ## From `g` to `h` -/

theorem calls_gh {x f : Nat} {ins args : List (Val W)} (hT : T x) (ho : x ≠ P.o) (hc : Calls g x ins f args) :
    Calls h (π x) ins f args := by
  cases hc with
  | direct hop hl hd hp =>
    rename_i sig targs inst l
    subst hd
    have hs := z.same_g hT ho (by rw [hop]; simp)
    have hf := z.fixed l hl hT (.inl ⟨_, _, _, hop⟩) (by rw [hp, hop, numIns_call])
    have := (z.link l hl hT).2
    rw [hf] at this
    exact .direct (l := ⟨l.src, l.srcPort, π l.dst, l.dstPort⟩) (hs ▸ hop) this rfl hp
  | indirect hop =>
    have hs := z.same_g hT ho (by rw [hop]; simp)
    exact .indirect (hs ▸ hop)

theorem leaf_gh {x : Nat} {ins outs : List (Val W)} (hT : T x) (ho : x ≠ P.o) (hl : Leaf g (S.along π) x ins outs) :
    Leaf h S (π x) ins outs := by
  cases hl with
  | makeTuple hop => exact .makeTuple ((z.same_g hT ho (by rw [hop]; simp)) ▸ hop)
  | unpackTuple hop hl => exact .unpackTuple ((z.same_g hT ho (by rw [hop]; simp)) ▸ hop) hl
  | tag hop => exact .tag ((z.same_g hT ho (by rw [hop]; simp)) ▸ hop)
  | loadConstant hop hl hd hp hc =>
    rename_i t t' l
    subst hd
    have hs := z.same_g hT ho (by rw [hop]; simp)
    obtain ⟨⟨hDs, hos⟩, hl'⟩ := z.link l hl hT
    have hs' := z.same_g hDs hos (by rw [hc]; simp)
    rw [value_along]
    exact .loadConstant (l := ⟨π l.src, l.srcPort, π l.dst, l.dstPort⟩) (hs ▸ hop) hl' rfl hp (hs' ▸ hc)
  | loadFunction hop hl hd hp =>
    rename_i sig targs inst l
    subst hd
    have hs := z.same_g hT ho (by rw [hop]; simp)
    have hf := z.fixed l hl hT (.inr ⟨_, _, _, hop⟩) (by rw [hp, hop, numIns_loadFunction])
    have := (z.link l hl hT).2
    rw [hf] at this
    exact .loadFunction (l := ⟨l.src, l.srcPort, π l.dst, l.dstPort⟩) (hs ▸ hop) this rfl hp
  | ext hop h1 h2 h3 => exact .ext ((z.same_g hT ho (by rw [hop]; simp)) ▸ hop) h1 h2 h3
  | external hc h1 h2 h3 =>
    exact .external (z.calls_gh hT ho hc) (fun hd => h1 ((z.defn _).2 hd)) (by rw [z.numsO hT ho]; exact h2) h3
  | unknown hop h1 h2 =>
    exact .unknown ((z.same_g hT ho (by rw [hop]; simp)) ▸ hop) (by rw [z.numsO hT ho]; exact h1) h2

omit z in
/-- Leaves are no graphs. -/
theorem leaf_op {k : Hugr Ops.Op Meta} {S : Sem W E} {x : Nat} {ins outs : List (Val W)} (hl : Leaf k S x ins outs) :
    (∀ a b c, k.ops x ≠ .conditional a b c) ∧ (∀ a b c, k.ops x ≠ .tailLoop a b c) ∧ (∀ s, k.ops x ≠ .dfg s) ∧
    (∀ t, k.ops x ≠ .output t) := by
  cases hl with
  | makeTuple hop => simp [hop]
  | unpackTuple hop hl => simp [hop]
  | tag hop => simp [hop]
  | loadConstant hop => simp [hop]
  | loadFunction hop => simp [hop]
  | ext hop h1 h2 h3 => simp [hop]
  | external hc h1 h2 h3 => cases hc with
    | direct hop => simp [hop]
    | indirect hop => simp [hop]
  | unknown hop h1 h2 => simp [hop]

omit z in
/-- What follows for `h` from running `g`. -/
def Down (h g : Hugr Ops.Op Meta) (P : PeelNodes) (ji jo : List Types.Ty) (T : Nat → Prop) (π : Nat → Nat) (S : Sem W E) :
    Task W → Prop
  | .graph ρ' p vals outs σ' =>
      (P.Body T p → ∀ ρ, PeelAgree g T π p ρ' ρ → (∀ n, n ∉ g.children p → σ' n = ρ' n) ∧
        ∃ σ, Runs h S (.graph ρ (P.body π p) vals outs σ) ∧ (∀ m ∈ g.children p, σ' m = σ (π m)) ∧
          ∀ n, n ∉ h.children (P.body π p) → σ n = ρ n) ∧
      (p = P.n → ∀ ρ, PeelAgree g T π P.n ρ' ρ → Runs h S (.loop ρ P.n vals outs)) ∧
      (p = P.again → ∀ ρ, PeelAgree g T π P.copy ρ' ρ → Runs h S (.loop ρ P.n vals outs)) ∧
      (p = P.stop → outs = vals)
  | .node ρ' x ins outs =>
      (T x → x ≠ P.o → outs.length = numOuts (g.ops x) → ∀ ρ, PeelAgree g T π x ρ' ρ → Runs h S (.node ρ (π x) ins outs)) ∧
      (x = P.o → ∃ elems rest,
        (ins = .sum 0 elems :: rest ∧ elems.length = ji.length ∧
          ∀ ρ, PeelAgree g T π P.copy ρ' ρ → Runs h S (.loop ρ P.n (elems ++ rest) outs)) ∨
        (ins = .sum 1 elems :: rest ∧ elems.length = jo.length ∧ outs = elems ++ rest)) ∧
      (x = P.copy → ∀ ρ, PeelAgree g T π P.copy ρ' ρ → Runs h S (.loop ρ P.n ins outs))
  | .loop ρ' x ins outs => P.Body T x → ∀ ρ, PeelAgree g T π x ρ' ρ → Runs h S (.loop ρ (P.body π x) ins outs)
  | .blocks ρ' b ins outs => ∀ q, b ∈ g.children q → P.Body T q → (∃ sig, g.ops q = .cfg sig) → ∀ ρ, PeelAgree g T π q ρ' ρ →
      Runs h S (.blocks ρ (π b) ins outs)

theorem back_eq {p x : Nat} (hB : P.Body T p) (hx : x ∈ g.children p) : Cover.back g π p (π x) = x := by
  unfold Cover.back
  cases hf : (g.children p).find? (fun y => π y = π x) with
  | none => exact absurd (List.find?_eq_none.1 hf x hx) (by simp)
  | some y =>
    have h1 := List.mem_of_find?_eq_some hf
    have h2 := List.find?_some hf
    simp only [decide_eq_true_eq] at h2
    exact z.inj p y x hB h1 hx h2

theorem mem_kids {p m : Nat} (hB : P.Body T p) : m ∈ h.children (P.body π p) ↔ ∃ x ∈ g.children p, π x = m := by
  rw [← z.kids p hB, List.mem_map]

theorem io {p i o : Nat} (hB : P.Body T p) (hio : HasIO g p i o) : HasIO h (P.body π p) (π i) (π o) := by
  obtain ⟨rest, hr⟩ := hio
  exact ⟨rest.map π, by rw [← z.kids p hB, hr]; rfl⟩

/-- A copy of the body of `h`, with its input, inner nodes and output. -/
theorem down_body {ρ' σ' : Wires W} {p i o : Nat} {vals res : List (Val W)} {ins outs : Nat → List (Val W)}
    (hio : HasIO g p i o) (h1 : ∀ n, n ∉ g.children p → σ' n = ρ' n) (h2 : σ' i = outWires vals)
    (h3 : vals.length = numOuts (g.ops i)) (h4 : σ' o = outWires [])
    (h5 : ∀ n, Inner g p i o n → Ready g σ' n (ins n))
    (h6 : ∀ n, Inner g p i o n → σ' n = outWires (outs n))
    (h7 : ∀ n, Inner g p i o n → (outs n).length = numOuts (g.ops n)) (h9 : Ready g σ' o res)
    (ih : ∀ n, Inner g p i o n → Down h g P ji jo T π S (.node σ' n (ins n) (outs n)))
    (hB : P.Body T p) (ρ : Wires W) (ha : PeelAgree g T π p ρ' ρ) :
    ∃ σ, Runs h S (.graph ρ (P.body π p) vals res σ) ∧ (∀ m ∈ g.children p, σ' m = σ (π m)) ∧
      ∀ n, n ∉ h.children (P.body π p) → σ n = ρ n := by
  classical
  let σ : Wires W := fun m => if m ∈ h.children (P.body π p) then σ' (Cover.back g π p m) else ρ m
  have hσ : ∀ m ∈ g.children p, σ' m = σ (π m) := by
    intro m hm
    have : π m ∈ h.children (P.body π p) := (z.mem_kids hB).2 ⟨m, hm, rfl⟩
    change _ = if _ then _ else _
    rw [if_pos this, z.back_eq hB hm]
  have hσ' : ∀ n, n ∉ h.children (P.body π p) → σ n = ρ n := fun n hn => if_neg hn
  have hag := z.agree_after hB (.inl rfl) ha hσ h1 hσ'
  obtain ⟨rs, hch⟩ := id hio
  have hi : i ∈ g.children p := by rw [hch]; simp
  have ho : o ∈ g.children p := by rw [hch]; simp
  have hin : ∀ m, Inner h (P.body π p) (π i) (π o) m → ∃ x, Inner g p i o x ∧ π x = m := by
    rintro m ⟨hm, hni, hno⟩
    obtain ⟨x, hx, rfl⟩ := (z.mem_kids hB).1 hm
    exact ⟨x, ⟨hx, fun e => hni (by rw [e]), fun e => hno (by rw [e])⟩, rfl⟩
  have hag' : ∀ n ∈ g.children p, ∀ l ∈ g.links, VLink g l → l.dst = n → σ' l.src = σ (π l.src) := by
    intro n hn l hl hv e
    exact hag l hl (by rw [e]; exact (z.kidsT p n hB hn).1) hv (by rw [e]; exact z.inside hn)
  refine ⟨σ, ?_, hσ, hσ'⟩
  refine .graph (ins := fun m => ins (Cover.back g π p m)) (outs := fun m => outs (Cover.back g π p m))
    (z.io hB hio) hσ' ?_ ?_ ?_ ?_ ?_ ?_ ?_ ?_
  · rw [← hσ i hi]; exact h2
  · rw [h3, z.numsO (z.kidsT p i hB hi).1 (z.kidsT p i hB hi).2]
  · rw [← hσ o ho]; exact h4
  · intro m hm
    obtain ⟨x, hx, rfl⟩ := hin m hm
    rw [z.back_eq hB hx.1]
    exact z.ready_gh (z.kidsT p x hB hx.1).1 (hag' x hx.1) (h5 x hx)
  · intro m hm
    obtain ⟨x, hx, rfl⟩ := hin m hm
    rw [z.back_eq hB hx.1, ← hσ x hx.1]; exact h6 x hx
  · intro m hm
    obtain ⟨x, hx, rfl⟩ := hin m hm
    rw [z.back_eq hB hx.1, z.numsO (z.kidsT p x hB hx.1).1 (z.kidsT p x hB hx.1).2]; exact h7 x hx
  · intro m hm
    obtain ⟨x, hx, rfl⟩ := hin m hm
    rw [z.back_eq hB hx.1]
    exact (ih x hx).1 (z.kidsT p x hB hx.1).1 (z.kidsT p x hB hx.1).2 (h7 x hx) σ (z.agree_child hx.1 hag)
  · exact z.ready_gh (z.kidsT p o hB ho).1 (hag' o ho) h9

/-- The graph that was the loop. -/
theorem down_peeled {ρ' σ' : Wires W} {i o : Nat} {vals res : List (Val W)} {ins outs : Nat → List (Val W)}
    (hio : HasIO g P.n i o) (h1 : ∀ n, n ∉ g.children P.n → σ' n = ρ' n) (h2 : σ' i = outWires vals)
    (h3 : vals.length = numOuts (g.ops i))
    (h5 : ∀ n, Inner g P.n i o n → Ready g σ' n (ins n))
    (h6 : ∀ n, Inner g P.n i o n → σ' n = outWires (outs n))
    (h7 : ∀ n, Inner g P.n i o n → (outs n).length = numOuts (g.ops n)) (h9 : Ready g σ' o res)
    (ih : ∀ n, Inner g P.n i o n → Down h g P ji jo T π S (.node σ' n (ins n) (outs n)))
    (ρ : Wires W) (ha : PeelAgree g T π P.n ρ' ρ) : Runs h S (.loop ρ P.n vals res) := by
  classical
  obtain ⟨rs, hch⟩ := id hio
  obtain ⟨cs, hkh, hkg⟩ := z.kidsH
  rw [hkg] at hch
  obtain ⟨rfl, rfl, rfl⟩ : P.i = i ∧ P.out = o ∧ P.o :: cs = rs := by simpa using hch
  have hTk : ∀ x ∈ h.children P.n, T x ∧ π x = x := fun x hx => z.old x (.inr hx)
  have hnd := z.treeH.child_once P.n
  change (h.children P.n).Nodup at hnd
  rw [hkh] at hnd
  have hio' : P.i ≠ P.o := by rintro e; rw [e] at hnd; simp at hnd
  have hTout : ¬ T P.out := z.news _ (by simp [PeelNew.news])
  have hoI : Inner g P.n P.i P.out P.o :=
    ⟨by rw [hkg]; simp, fun e => hio' e.symm, fun e => hTout (e ▸ z.To.1)⟩
  have hin : ∀ x, Inner h P.n P.i P.o x → Inner g P.n P.i P.out x ∧ x ≠ P.o := by
    rintro x ⟨hx, e1, e2⟩
    refine ⟨⟨?_, e1, fun e => hTout (e ▸ (hTk x hx).1)⟩, e2⟩
    rw [hkh] at hx
    rw [hkg]
    simp only [List.mem_cons] at hx ⊢
    tauto
  let σ : Wires W := fun m => if m = P.o then outWires [] else if m ∈ h.children P.n then σ' m else ρ m
  have hσo : σ P.o = outWires [] := if_pos rfl
  have hσk : ∀ m ∈ h.children P.n, m ≠ P.o → σ m = σ' m := fun m hm ho => by
    change (if _ then _ else _) = _
    rw [if_neg ho, if_pos hm]
  have hσf : ∀ m, m ∉ h.children P.n → σ m = ρ m := fun m hm => by
    change (if _ then _ else _) = _
    rw [if_neg (fun e : m = P.o => hm (e ▸ z.o_kid)), if_neg hm]
  -- the wires agree around the nodes of the body
  have hag : ∀ c ∈ h.children P.n, ∀ l ∈ g.links, T l.dst → VLink g l → l.dst = c ∨ c ≠ P.o ∧ Inside g c l.dst →
      σ' l.src = σ (π l.src) := by
    intro c hc l hl ht hv hor
    obtain ⟨⟨hTs, hso⟩, -⟩ := z.link l hl ht
    have hcg : c ∈ g.children P.n := by
      rw [hkh] at hc; rw [hkg]; simp only [List.mem_cons] at hc ⊢; tauto
    have hins : Inside g P.n l.dst := by
      rcases hor with e | ⟨_, hi⟩
      · rw [e]; exact z.inside hcg
      · exact (z.inside hcg).trans hi
    by_cases hs : l.src ∈ h.children P.n
    · rw [(hTk _ hs).2, hσk _ hs hso]
    · rw [hσf _ fun hc' => hs (z.scopeN c hc l hl ht hor hc'), ← ha l hl ht hv hins]
      refine h1 _ fun hc' => ?_
      rw [hkg] at hc'
      rw [hkh] at hs
      simp only [List.mem_cons] at hc' hs
      rcases hc' with e | e | e | e
      · exact hs (.inl e)
      · exact hTout (e ▸ hTs)
      · exact hs (.inr (.inl e))
      · exact hs (.inr (.inr e))
  have hr : Ready h σ P.o (ins P.o) := by
    have := z.ready_gh (σ := σ) z.To.1 (fun l hl hv e => hag P.o z.o_kid l hl (by rw [e]; exact z.To.1) hv (.inl e)) (h5 _ hoI)
    rwa [z.To.2] at this
  have hres : res = outs P.o := by
    refine z.feedOut.eq (h6 _ hoI) ?_ h9
    rw [h7 _ hoI, z.opCond, z.opNew.1, (num_cond ..).2, num_output]
  have hik : P.i ∈ h.children P.n := by rw [hkh]; simp
  have hgraph : Runs h S (.graph ρ P.n vals (ins P.o) σ) := by
    refine .graph (ins := ins) (outs := outs) ⟨cs, hkh⟩ hσf ?_ ?_ hσo ?_ ?_ ?_ ?_ hr
    · rw [hσk _ hik hio']; exact h2
    · have := z.numsO (hTk _ hik).1 hio'
      rw [(hTk _ hik).2] at this
      rw [this]; exact h3
    · intro x hx
      obtain ⟨hx', hxo⟩ := hin x hx
      have := z.ready_gh (σ := σ) (hTk x hx.1).1 (fun l hl hv e => hag x hx.1 l hl (by rw [e]; exact (hTk x hx.1).1) hv (.inl e))
        (h5 _ hx')
      rwa [(hTk x hx.1).2] at this
    · intro x hx
      obtain ⟨hx', hxo⟩ := hin x hx
      rw [hσk x hx.1 hxo]; exact h6 _ hx'
    · intro x hx
      obtain ⟨hx', hxo⟩ := hin x hx
      have := z.numsO (hTk x hx.1).1 hxo
      rw [(hTk x hx.1).2] at this
      rw [this]; exact h7 _ hx'
    · intro x hx
      obtain ⟨hx', hxo⟩ := hin x hx
      have := (ih x hx').1 (hTk x hx.1).1 hxo (h7 _ hx') σ
        (fun l hl ht hv hi => hag x hx.1 l hl ht hv (.inr ⟨hxo, hi⟩))
      rwa [(hTk x hx.1).2] at this
  have hcopy : PeelAgree g T π P.copy σ' ρ := by
    intro l hl ht hv hi
    have hio2 : Inside g P.o l.dst := by
      have e1 : P.again ∈ g.children P.o := by rw [z.kidsO]; simp
      have e2 : P.copy ∈ g.children P.again := by rw [z.kidsAgain]; simp
      exact (z.inside e1).trans ((z.inside e2).trans hi)
    rw [h1 _ (z.scopeO l hl ht hv hio2)]
    exact ha l hl ht hv ((z.inside hoI.1).trans hio2)
  obtain ⟨elems, others, ⟨e1, e2, e3⟩ | ⟨e1, e2, e3⟩⟩ := (ih _ hoI).2.1 rfl
  · rw [e1] at hgraph
    rw [hres]
    exact .again z.opLoop e2 hgraph (e3 ρ hcopy)
  · rw [e1] at hgraph
    rw [hres, e3]
    exact .done z.opLoop e2 hgraph

theorem down {t : Task W} (hr : Runs g (S.along π) t) : Down h g P ji jo T π S t := by
  classical
  induction hr with
  | @graph ρ' σ' p i o vals res ins outs hio h1 h2 h3 h4 h5 h6 h7 _ h9 ih =>
    refine ⟨fun hB ρ ha => ⟨h1, z.down_body hio h1 h2 h3 h4 h5 h6 h7 h9 ih hB ρ ha⟩, ?_, ?_, ?_⟩
    · rintro rfl ρ ha
      exact z.down_peeled hio h1 h2 h3 h5 h6 h7 h9 ih ρ ha
    · rintro rfl ρ ha
      obtain ⟨rs, hch⟩ := hio
      rw [z.kidsAgain] at hch
      obtain ⟨rfl, rfl, rfl⟩ : P.againIn = i ∧ P.againOut = o ∧ [P.copy] = rs := by simpa using hch
      have hc : Inner g P.again P.againIn P.againOut P.copy := by
        refine ⟨by rw [z.kidsAgain]; simp, ?_, ?_⟩ <;> intro e
        · have := z.opCopy; rw [e, z.opNew.2.1] at this; cases this
        · have := z.opCopy; rw [e, z.opNew.2.2.1] at this; cases this
      have e1 : ins P.copy = vals := by
        refine z.feedAgain.eq h2 ?_ (h5 _ hc)
        rw [h3, z.opNew.2.1, z.opCopy, num_input, (num_loop ..).1]
      have e2 : res = outs P.copy := by
        refine z.feedAgain'.eq (h6 _ hc) ?_ h9
        rw [h7 _ hc, z.opCopy, z.opNew.2.2.1, (num_loop ..).2, num_output]
      have := (ih _ hc).2.2 rfl ρ (fun l hl ht hv hi => by
        rw [h1, ha l hl ht hv hi]
        rw [z.kidsAgain]
        have hTs := (z.link l hl ht).1.1
        intro hm
        refine z.news l.src ?_ hTs
        simp only [PeelNew.news, List.mem_cons, List.not_mem_nil, or_false] at hm ⊢
        tauto)
      rwa [e1, ← e2] at this
    · rintro rfl
      obtain ⟨rs, hch⟩ := hio
      rw [z.kidsStop] at hch
      obtain ⟨rfl, rfl, rfl⟩ : P.stopIn = i ∧ P.stopOut = o ∧ [] = rs := by simpa using hch
      refine z.feedStop.eq h2 ?_ h9
      rw [h3, z.opNew.2.2.2.1, z.opNew.2.2.2.2, num_input, num_output]
  | @leaf ρ' x ins outs hl =>
    refine ⟨fun hT ho _ ρ _ => .leaf (z.leaf_gh hT ho hl), ?_, ?_⟩
    · rintro rfl; exact absurd z.opCond ((leaf_op hl).1 _ _ _)
    · rintro rfl; exact absurd z.opCopy ((leaf_op hl).2.1 _ _ _)
  | @const ρ' x t hop =>
    refine ⟨fun hT ho _ ρ _ => .const ((z.same_g hT ho (by rw [hop]; simp)) ▸ hop), ?_, ?_⟩
    · rintro rfl; rw [z.opCond] at hop; cases hop
    · rintro rfl; rw [z.opCopy] at hop; cases hop
  | @dfg ρ' σ' x sig ins outs hop hr ih =>
    refine ⟨fun hT ho hlen ρ ha => ?_, ?_, ?_⟩
    · by_cases hn : x = P.n
      · subst hn
        rw [z.Tn.2]
        exact .tailLoop z.opLoop (ih.2.1 rfl ρ ha)
      · obtain ⟨_, σ, h1, _⟩ := ih.1 (.inl ⟨hT, ho, hn⟩) ρ ha
        rw [z.body_T hT] at h1
        exact .dfg ((z.same x hT hn ho) ▸ hop) h1
    · rintro rfl; rw [z.opCond] at hop; cases hop
    · rintro rfl; rw [z.opCopy] at hop; cases hop
  | @cond ρ' σ' x c tag rows other ots row elems rs outs hop hc hrow hlen _ ih =>
    refine ⟨fun hT ho _ ρ ha => ?_, ?_, ?_⟩
    · have hs := z.same_g hT ho (by rw [hop]; simp)
      have hxn : x ≠ P.n := by rintro rfl; rw [z.opDfg] at hop; cases hop
      have hB : P.Body T x := .inl ⟨hT, ho, hxn⟩
      have hm : c ∈ g.children x := List.mem_of_getElem? hc
      obtain ⟨hTc, hco⟩ := z.kidsT x c hB hm
      obtain ⟨_, σ, h1, _⟩ := ih.1 (.inl ⟨hTc, hco, z.arms x c hT ⟨_, _, _, hop⟩ hm⟩) ρ (z.agree_child hm ha)
      rw [z.body_T hTc] at h1
      refine .cond (hs ▸ hop) ?_ hrow hlen h1
      rw [← z.body_T hT, ← z.kids x hB, List.getElem?_map, hc]; rfl
    · rintro rfl
      rw [z.opCond] at hop
      obtain ⟨rfl, rfl, rfl⟩ : [ji, jo] = rows ∧ rest = other ∧ jo ++ rest = ots := by simpa using hop
      rw [z.kidsO] at hc
      match tag with
      | 0 =>
        obtain rfl : P.again = c := by simpa using hc
        obtain rfl : ji = row := by simpa using hrow
        refine ⟨elems, rs, .inl ⟨rfl, hlen, fun ρ ha => ih.2.2.1 rfl ρ ha⟩⟩
      | 1 =>
        obtain rfl : P.stop = c := by simpa using hc
        obtain rfl : jo = row := by simpa using hrow
        exact ⟨elems, rs, .inr ⟨rfl, hlen, ih.2.2.2 rfl⟩⟩
      | k + 2 => simp at hc
    · rintro rfl; rw [z.opCopy] at hop; cases hop
  | @tailLoop ρ' x a b c ins outs hop _ ih =>
    refine ⟨fun hT ho _ ρ ha => ?_, ?_, ?_⟩
    · have hxn : x ≠ P.n := by rintro rfl; rw [z.opDfg] at hop; cases hop
      have := ih (.inl ⟨hT, ho, hxn⟩) ρ ha
      rw [z.body_T hT] at this
      exact .tailLoop ((z.same x hT hxn ho) ▸ hop) this
    · rintro rfl; rw [z.opCond] at hop; cases hop
    · rintro rfl ρ ha
      have := ih (.inr rfl) ρ ha
      rwa [z.body_copy] at this
  | @again ρ' σ' x a b c ins elems others outs hop hlen _ _ ih1 ih2 =>
    intro hB ρ ha
    obtain ⟨_, σ, h1, _⟩ := ih1.1 hB ρ ha
    have hop' : h.ops (P.body π x) = .tailLoop a b c := by
      rcases hB with ⟨hT, ho, hn⟩ | rfl
      · rw [z.body_T hT, ← z.same x hT hn ho, hop]
      · rw [z.body_copy, z.opLoop, ← z.opCopy, hop]
    exact .again hop' hlen h1 (ih2 hB ρ ha)
  | @done ρ' σ' x a b c ins elems others hop hlen _ ih =>
    intro hB ρ ha
    obtain ⟨_, σ, h1, _⟩ := ih.1 hB ρ ha
    have hop' : h.ops (P.body π x) = .tailLoop a b c := by
      rcases hB with ⟨hT, ho, hn⟩ | rfl
      · rw [z.body_T hT, ← z.same x hT hn ho, hop]
      · rw [z.body_copy, z.opLoop, ← z.opCopy, hop]
    exact .done hop' hlen h1
  | @cfg ρ' x entry rs sig ins outs hop hch _ ih =>
    refine ⟨fun hT ho _ ρ ha => ?_, ?_, ?_⟩
    · have hxn : x ≠ P.n := by rintro rfl; rw [z.opDfg] at hop; cases hop
      have hB : P.Body T x := .inl ⟨hT, ho, hxn⟩
      have hm : entry ∈ g.children x := by rw [hch]; simp
      refine .cfg (rest := rs.map π) ((z.same x hT hxn ho) ▸ hop) ?_ (ih x hm hB ⟨_, hop⟩ ρ ha)
      rw [← z.body_T hT, ← z.kids x hB, hch]; rfl
    · rintro rfl; rw [z.opCond] at hop; cases hop
    · rintro rfl; rw [z.opCopy] at hop; cases hop
  | @jump ρ' σ' b tag x other y z' rows w row ins elems others outs l hop hrow hlen hl hsrc hport hdst _ _ ih1 ih2 =>
    intro q hb hBq hcfg ρ ha
    subst hsrc
    obtain ⟨hTb, hbo⟩ := z.kidsT q _ hBq hb
    have hbn : l.src ≠ P.n := by intro e; rw [e, z.opDfg] at hop; cases hop
    have hs := z.same _ hTb hbn hbo
    obtain ⟨q', f1, f2⟩ := z.flow l hl ⟨_, _, _, hop⟩
    rw [z.child hb] at f1; cases f1
    have hd : l.dst ∈ g.children q := (z.tree.child_iff _ _).2 f2
    obtain ⟨hTd, hdo⟩ := z.kidsT q _ hBq hd
    have hsd := z.same_g hTd hdo (by rw [hdst]; simp)
    have hBb : P.Body T l.src := .inl ⟨hTb, hbo, hbn⟩
    obtain ⟨h0, σ, h1, h2, h3⟩ := ih1.1 hBb ρ (z.agree_child hb ha)
    have hq : q = l.src ∨ l.src ∈ g.children q ∧ ∃ x y z, g.ops l.src = .dataflowBlock x y z :=
      .inr ⟨hb, _, _, _, hop⟩
    have hag := z.agree_after hBb hq ha h2 h0 h3
    rw [z.body_T hTb] at h1
    exact .jump (l := ⟨π l.src, l.srcPort, π l.dst, l.dstPort⟩) (hs ▸ hop) hrow hlen
      (z.link l hl hTd).2 rfl hport (hsd ▸ hdst) h1 (ih2 q hd hBq hcfg σ hag)
  | @exit ρ' σ' b tag x other ots rows row ins elems others l hop hrow hlen hl hsrc hport hdst _ ih =>
    intro q hb hBq hcfg ρ ha
    subst hsrc
    obtain ⟨hTb, hbo⟩ := z.kidsT q _ hBq hb
    have hbn : l.src ≠ P.n := by intro e; rw [e, z.opDfg] at hop; cases hop
    have hs := z.same _ hTb hbn hbo
    obtain ⟨q', f1, f2⟩ := z.flow l hl ⟨_, _, _, hop⟩
    rw [z.child hb] at f1; cases f1
    have hd : l.dst ∈ g.children q := (z.tree.child_iff _ _).2 f2
    obtain ⟨hTd, hdo⟩ := z.kidsT q _ hBq hd
    have hsd := z.same_g hTd hdo (by rw [hdst]; simp)
    obtain ⟨h0, σ, h1, h2, h3⟩ := ih.1 (.inl ⟨hTb, hbo, hbn⟩) ρ (z.agree_child hb ha)
    rw [z.body_T hTb] at h1
    exact .exit (l := ⟨π l.src, l.srcPort, π l.dst, l.dstPort⟩) (hs ▸ hop) hrow hlen
      (z.link l hl hTd).2 rfl hport (hsd ▸ hdst) h1
  | @call ρ' σ' x f ins args outs hc hd hlen _ ih =>
    refine ⟨fun hT ho _ ρ _ => ?_, ?_, ?_⟩
    · obtain ⟨hTf, e1⟩ := z.defnD _ hd
      obtain ⟨_, σ, h1, _⟩ := ih.1 (z.defn_body hd) noWires (fun _ _ _ _ _ => rfl)
      rw [z.body_T hTf, e1] at h1
      exact .call (z.calls_gh hT ho hc) ((z.defn _).1 hd) (by rw [z.numsO hT ho]; exact hlen) h1
    · rintro rfl
      cases hc with
      | direct hop => rw [z.opCond] at hop; cases hop
      | indirect hop => rw [z.opCond] at hop; cases hop
    · rintro rfl
      cases hc with
      | direct hop => rw [z.opCopy] at hop; cases hop
      | indirect hop => rw [z.opCopy] at hop; cases hop

/-! ## From `h` to `g` -/

theorem calls_hg {x f : Nat} {ins args : List (Val W)} (hT : T x) (ho : x ≠ P.o)
    (hc : Calls h (π x) ins f args) : Calls g x ins f args := by
  generalize hm : π x = m at hc
  cases hc with
  | direct hop hl hd hp =>
    rename_i sig targs inst l
    obtain ⟨s, sp, t, tp⟩ := l
    simp only [] at hd hp hl
    subst hd; subst hm
    have hop' := (z.same_h hT ho (by rw [hop]; simp)).trans hop
    obtain ⟨s', hl', e⟩ := z.lift x tp s sp hT hl
    have hf := z.fixed _ hl' hT (.inl ⟨_, _, _, hop'⟩) (by simp only []; rw [hp, hop', numIns_call])
    simp only [] at hf
    rw [hf] at e; subst e
    exact .direct (l := ⟨s', sp, x, tp⟩) hop' hl' rfl hp
  | indirect hop => subst hm; exact .indirect ((z.same_h hT ho (by rw [hop]; simp)).trans hop)

theorem leaf_hg {x : Nat} {ins outs : List (Val W)} (hT : T x) (ho : x ≠ P.o) (hl : Leaf h S (π x) ins outs) :
    Leaf g (S.along π) x ins outs := by
  have hs := z.same_h hT ho (leaf_op hl).2.1
  generalize hm : π x = m at hl
  cases hl with
  | makeTuple hop => subst hm; exact .makeTuple (hs.trans hop)
  | unpackTuple hop hl => subst hm; exact .unpackTuple (hs.trans hop) hl
  | tag hop => subst hm; exact .tag (hs.trans hop)
  | loadConstant hop hl hd hp hc =>
    rename_i t t' l
    obtain ⟨s, sp, d, dp⟩ := l
    simp only [] at hd hp hl hc
    subst hd; subst hm
    obtain ⟨s', hl', e⟩ := z.lift x dp s sp hT hl
    subst e
    obtain ⟨hTs, hso⟩ := (z.link _ hl' hT).1
    have hs' := z.same_h hTs hso (by simp only []; rw [hc]; simp)
    have := Leaf.loadConstant (S := S.along π) (hs.trans hop) hl' rfl hp (hs'.trans hc)
    rw [value_along] at this
    exact this
  | loadFunction hop hl hd hp =>
    rename_i sig targs inst l
    obtain ⟨s, sp, d, dp⟩ := l
    simp only [] at hd hp hl
    subst hd; subst hm
    have hop' := hs.trans hop
    obtain ⟨s', hl', e⟩ := z.lift x dp s sp hT hl
    have hf := z.fixed _ hl' hT (.inr ⟨_, _, _, hop'⟩) (by simp only []; rw [hp, hop', numIns_loadFunction])
    simp only [] at hf
    rw [hf] at e; subst e
    exact .loadFunction (l := ⟨s', sp, x, dp⟩) hop' hl' rfl hp
  | ext hop h1 h2 h3 => subst hm; exact .ext (hs.trans hop) h1 h2 h3
  | external hc h1 h2 h3 =>
    subst hm
    exact .external (z.calls_hg hT ho hc) (fun hd => h1 ((z.defn _).1 hd)) (by rw [← z.numsO hT ho]; exact h2) h3
  | unknown hop h1 h2 =>
    subst hm
    exact .unknown (hs.trans hop) (by rw [← z.numsO hT ho]; exact h1) h2

omit z in
/-- What follows for `g` from running `h`. -/
def Up (h g : Hugr Ops.Op Meta) (P : PeelNodes) (jo rest : List Types.Ty) (T : Nat → Prop) (π : Nat → Nat) (S : Sem W E) :
    Task W → Prop
  | .graph ρ p0 vals outs σ =>
      ((∀ n, n ∉ h.children p0 → σ n = ρ n) ∧
        ∀ p, P.Body T p → P.body π p = p0 → ∀ ρ', PeelAgree g T π p ρ' ρ →
        ∃ σ', Runs g (S.along π) (.graph ρ' p vals outs σ') ∧ (∀ m ∈ g.children p, σ' m = σ (π m)) ∧
          ∀ n, n ∉ g.children p → σ' n = ρ' n) ∧
      (p0 = P.n → outs.length = rest.length + 1 ∧ ∀ ρ', PeelAgree g T π P.n ρ' ρ →
        ∀ outs2 : List (Val W), outs2.length = (jo ++ rest).length →
        (∀ σ', (∀ x, x ∉ g.children P.n → σ' x = ρ' x) → Runs g (S.along π) (.node σ' P.o outs outs2)) →
        ∃ σ', Runs g (S.along π) (.graph ρ' P.n vals outs2 σ'))
  | .node ρ n0 ins outs => ∀ x, T x → x ≠ P.o → π x = n0 → ∀ ρ', PeelAgree g T π x ρ' ρ →
      Runs g (S.along π) (.node ρ' x ins outs)
  | .loop ρ n0 ins outs =>
      (∀ x, P.Body T x → P.body π x = n0 → ∀ ρ', PeelAgree g T π x ρ' ρ →
        Runs g (S.along π) (.loop ρ' x ins outs)) ∧
      (n0 = P.n → outs.length = (jo ++ rest).length ∧ ∀ ρ', PeelAgree g T π P.n ρ' ρ →
        Runs g (S.along π) (.node ρ' P.n ins outs))
  | .blocks ρ b0 ins outs => ∀ b q, π b = b0 → b ∈ g.children q → P.Body T q → (∃ sig, g.ops q = .cfg sig) →
      ∀ ρ', PeelAgree g T π q ρ' ρ → Runs g (S.along π) (.blocks ρ' b ins outs)

theorem child_h {p c : Nat} (hB : P.Body T p) (hc : c ∈ g.children p) : h.hier.parent (π c) = some (P.body π p) :=
  (z.treeH.child_iff _ _).1 ((z.mem_kids hB).2 ⟨c, hc, rfl⟩)

/-- The links between blocks. -/
theorem flow_hg {q b : Nat} (hB : P.Body T q) (hb : b ∈ g.children q) {x y : List Types.Ty} {w : List (List Types.Ty)}
    (hop : h.ops (π b) = .dataflowBlock x y w) {sp t tp : Nat} (hl : ⟨π b, sp, t, tp⟩ ∈ h.links)
    (ht : ∀ a b c, h.ops t ≠ .tailLoop a b c) :
    ∃ t', t' ∈ g.children q ∧ π t' = t ∧ ⟨b, sp, t', tp⟩ ∈ g.links ∧ g.ops t' = h.ops t := by
  obtain ⟨q0, f1, f2⟩ := z.flowH _ hl ⟨_, _, _, hop⟩
  simp only [] at f1 f2
  rw [z.child_h hB hb] at f1; cases f1
  obtain ⟨t', ht', rfl⟩ := (z.mem_kids hB).1 ((z.treeH.child_iff _ _).2 f2)
  obtain ⟨hTt, hto⟩ := z.kidsT q t' hB ht'
  have hst := z.same_h hTt hto ht
  obtain ⟨s', hl', e⟩ := z.lift t' tp _ sp hTt hl
  obtain ⟨hTs, hso⟩ := (z.link _ hl' hTt).1
  have hss := z.same_h hTs hso (by simp only []; rw [e, hop]; simp)
  obtain ⟨q', g1, g2⟩ := z.flow _ hl' ⟨_, _, _, by simp only [] at hss ⊢; rw [hss, e, hop]⟩
  simp only [] at g1 g2
  rw [z.child ht'] at g2; cases g2
  have := z.inj q s' b hB ((z.tree.child_iff _ _).2 g1) hb e
  subst this
  exact ⟨t', ht', rfl, hl', hst⟩

/-- The body of the loop, as the start of the graph. -/
theorem up_peeled {ρ σ : Wires W} {i o : Nat} {vals res : List (Val W)} {ins outs : Nat → List (Val W)}
    (hio : HasIO h P.n i o) (h1 : ∀ n, n ∉ h.children P.n → σ n = ρ n) (h2 : σ i = outWires vals)
    (h3 : vals.length = numOuts (h.ops i))
    (h5 : ∀ n, Inner h P.n i o n → Ready h σ n (ins n))
    (h6 : ∀ n, Inner h P.n i o n → σ n = outWires (outs n))
    (h7 : ∀ n, Inner h P.n i o n → (outs n).length = numOuts (h.ops n)) (h9 : Ready h σ o res)
    (ih : ∀ n, Inner h P.n i o n → Up h g P jo rest T π S (.node σ n (ins n) (outs n)))
    (ρ' : Wires W) (ha : PeelAgree g T π P.n ρ' ρ) (outs2 : List (Val W)) (hlen : outs2.length = (jo ++ rest).length)
    (hcond : ∀ σ', (∀ x, x ∉ g.children P.n → σ' x = ρ' x) → Runs g (S.along π) (.node σ' P.o res outs2)) :
    ∃ σ', Runs g (S.along π) (.graph ρ' P.n vals outs2 σ') := by
  classical
  obtain ⟨rs, hch⟩ := id hio
  obtain ⟨cs, hkh, hkg⟩ := z.kidsH
  rw [hkh] at hch
  obtain ⟨rfl, rfl, rfl⟩ : P.i = i ∧ P.o = o ∧ cs = rs := by simpa using hch
  have hTk : ∀ x ∈ h.children P.n, T x ∧ π x = x := fun x hx => z.old x (.inr hx)
  have hnd := z.treeH.child_once P.n
  change (h.children P.n).Nodup at hnd
  rw [hkh] at hnd
  have hio' : P.i ≠ P.o := by rintro e; rw [e] at hnd; simp at hnd
  have hTout : ¬ T P.out := z.news _ (by simp [PeelNew.news])
  have hik : P.i ∈ h.children P.n := by rw [hkh]; simp
  have hoo : P.o ≠ P.out := fun e => hTout (e ▸ z.To.1)
  have hgk : ∀ x ∈ h.children P.n, x ∈ g.children P.n ∧ x ≠ P.out := by
    intro x hx
    refine ⟨?_, fun e => hTout (e ▸ (hTk x hx).1)⟩
    rw [hkh] at hx
    rw [hkg]
    simp only [List.mem_cons] at hx ⊢
    tauto
  have hin : ∀ x, Inner g P.n P.i P.out x → x ≠ P.o → Inner h P.n P.i P.o x := by
    rintro x ⟨hx, e1, e2⟩ e3
    refine ⟨?_, e1, e3⟩
    rw [hkg] at hx
    rw [hkh]
    simp only [List.mem_cons] at hx ⊢
    tauto
  let σ' : Wires W := fun m => if m = P.out then outWires [] else if m = P.o then outWires outs2 else
    if m ∈ g.children P.n then σ m else ρ' m
  have hσout : σ' P.out = outWires [] := if_pos rfl
  have hσo : σ' P.o = outWires outs2 := by
    change (if _ then _ else _) = _
    rw [if_neg hoo, if_pos rfl]
  have hσk : ∀ m ∈ h.children P.n, m ≠ P.o → σ' m = σ m := fun m hm ho => by
    change (if _ then _ else _) = _
    rw [if_neg (hgk m hm).2, if_neg ho, if_pos (hgk m hm).1]
  have hσf : ∀ m, m ∉ g.children P.n → σ' m = ρ' m := fun m hm => by
    change (if _ then _ else _) = _
    rw [if_neg (fun e : m = P.out => hm (by rw [e, hkg]; simp)), if_neg (fun e : m = P.o => hm (by rw [e, hkg]; simp)),
      if_neg hm]
  have hag : ∀ c ∈ h.children P.n, ∀ l ∈ g.links, T l.dst → VLink g l → l.dst = c ∨ c ≠ P.o ∧ Inside g c l.dst →
      σ' l.src = σ (π l.src) := by
    intro c hc l hl ht hv hor
    obtain ⟨⟨hTs, hso⟩, -⟩ := z.link l hl ht
    have hcg := (hgk c hc).1
    have hins : Inside g P.n l.dst := by
      rcases hor with e | ⟨_, hi⟩
      · rw [e]; exact z.inside hcg
      · exact (z.inside hcg).trans hi
    by_cases hs : l.src ∈ h.children P.n
    · rw [(hTk _ hs).2, hσk _ hs hso]
    · rw [h1 _ fun hc' => hs (z.scopeN c hc l hl ht hor hc'), ← ha l hl ht hv hins]
      refine hσf _ fun hc' => ?_
      rw [hkg] at hc'
      rw [hkh] at hs
      simp only [List.mem_cons] at hc' hs
      rcases hc' with e | e | e | e
      · exact hs (.inl e)
      · exact hTout (e ▸ hTs)
      · exact hs (.inr (.inl e))
      · exact hs (.inr (.inr e))
  refine ⟨σ', .graph (i := P.i) (o := P.out) (ins := fun x => if x = P.o then res else ins x)
    (outs := fun x => if x = P.o then outs2 else outs x) ⟨_, hkg⟩ hσf ?_ ?_ hσout ?_ ?_ ?_ ?_ ?_⟩
  · rw [hσk _ hik hio']; exact h2
  · have := z.numsO (hTk _ hik).1 hio'
    rw [(hTk _ hik).2] at this
    rw [← this]; exact h3
  · intro x hx
    by_cases hxo : x = P.o
    · subst hxo
      simp only [if_true]
      exact z.ready_hg z.To.1 (fun l hl hv e => hag P.o z.o_kid l hl (by rw [e]; exact z.To.1) hv (.inl e))
        (by rw [z.To.2]; exact h9)
    · simp only [if_neg hxo]
      have hx' := hin x hx hxo
      exact z.ready_hg (hTk x hx'.1).1 (fun l hl hv e => hag x hx'.1 l hl (by rw [e]; exact (hTk x hx'.1).1) hv (.inl e))
        (by rw [(hTk x hx'.1).2]; exact h5 x hx')
  · intro x hx
    by_cases hxo : x = P.o
    · subst hxo; simp only [if_true]; exact hσo
    · simp only [if_neg hxo]
      have hx' := hin x hx hxo
      rw [hσk x hx'.1 hxo]; exact h6 x hx'
  · intro x hx
    by_cases hxo : x = P.o
    · subst hxo; simp only [if_true]; rw [hlen, z.opCond, (num_cond ..).2]
    · simp only [if_neg hxo]
      have hx' := hin x hx hxo
      have := z.numsO (hTk x hx'.1).1 hxo
      rw [(hTk x hx'.1).2] at this
      rw [← this]; exact h7 x hx'
  · intro x hx
    by_cases hxo : x = P.o
    · subst hxo; simp only [if_true]; exact hcond σ' hσf
    · simp only [if_neg hxo]
      have hx' := hin x hx hxo
      exact ih x hx' x (hTk x hx'.1).1 hxo (hTk x hx'.1).2 σ'
        (fun l hl ht hv hi => hag x hx'.1 l hl ht hv (.inr ⟨hxo, hi⟩))
  · refine z.feedOut.ready hσo ?_
    rw [hlen, z.opNew.1, num_output]

/-- Running the copy of the loop. -/
theorem up_again {ρ' σ' ρ : Wires W} {elems others outs : List (Val W)} (ha : PeelAgree g T π P.n ρ' ρ)
    (hσ : ∀ x, x ∉ g.children P.n → σ' x = ρ' x) (he : elems.length = ji.length) (hothers : others.length = rest.length)
    (hlen : outs.length = (jo ++ rest).length)
    (ih : ∀ ρ', PeelAgree g T π P.copy ρ' ρ → Runs g (S.along π) (.loop ρ' P.copy (elems ++ others) outs)) :
    Runs g (S.along π) (.node σ' P.o (.sum 0 elems :: others) outs) := by
  classical
  have hne1 : P.copy ≠ P.againIn := by
    intro e; have := z.opCopy; rw [e, z.opNew.2.1] at this; cases this
  have hne2 : P.copy ≠ P.againOut := by
    intro e; have := z.opCopy; rw [e, z.opNew.2.2.1] at this; cases this
  have hne3 : P.againOut ≠ P.againIn := by
    intro e; have := z.opNew.2.1; rw [← e, z.opNew.2.2.1] at this; cases this
  let σ2 : Wires W := fun m => if m = P.againIn then outWires (elems ++ others) else
    if m = P.againOut then outWires [] else if m = P.copy then outWires outs else σ' m
  have e1 : σ2 P.againIn = outWires (elems ++ others) := if_pos rfl
  have e2 : σ2 P.againOut = outWires [] := by
    change (if _ then _ else _) = _
    rw [if_neg hne3, if_pos rfl]
  have e3 : σ2 P.copy = outWires outs := by
    change (if _ then _ else _) = _
    rw [if_neg hne1, if_neg hne2, if_pos rfl]
  have e4 : ∀ m, m ∉ g.children P.again → σ2 m = σ' m := by
    intro m hm
    rw [z.kidsAgain] at hm
    simp only [List.mem_cons, List.not_mem_nil, or_false, not_or] at hm
    change (if _ then _ else _) = _
    rw [if_neg hm.1, if_neg hm.2.1, if_neg hm.2.2]
  have hl1 : (elems ++ others).length = (ji ++ rest).length := by
    rw [List.length_append, List.length_append, he, hothers]
  have hag : PeelAgree g T π P.copy σ2 ρ := by
    intro l hl ht hv hi
    have hTs := (z.link l hl ht).1.1
    have hoin : Inside g P.o l.dst := by
      have e1 : P.again ∈ g.children P.o := by rw [z.kidsO]; simp
      have e2 : P.copy ∈ g.children P.again := by rw [z.kidsAgain]; simp
      exact (z.inside e1).trans ((z.inside e2).trans hi)
    have hon : P.o ∈ g.children P.n := by
      obtain ⟨cs, _, hkg⟩ := z.kidsH
      rw [hkg]; simp
    rw [e4, hσ _ (z.scopeO l hl ht hv hoin)]
    · exact ha l hl ht hv ((z.inside hon).trans hoin)
    · rw [z.kidsAgain]
      intro hm
      refine z.news l.src ?_ hTs
      simp only [PeelNew.news, List.mem_cons, List.not_mem_nil, or_false] at hm ⊢
      tauto
  refine .cond (c := P.again) (row := ji) (σ := σ2) z.opCond (by rw [z.kidsO]; rfl) rfl he ?_
  have hin : ∀ x, Inner g P.again P.againIn P.againOut x → x = P.copy := by
    rintro x ⟨hx, e1, e2⟩
    rw [z.kidsAgain] at hx
    simp only [List.mem_cons, List.not_mem_nil, or_false] at hx
    tauto
  refine .graph (ins := fun _ => elems ++ others) (outs := fun _ => outs) ⟨_, z.kidsAgain⟩ e4 e1 ?_ e2 ?_ ?_ ?_ ?_ ?_
  · rw [hl1, z.opNew.2.1, num_input]
  · intro x hx
    rw [hin x hx]
    refine z.feedAgain.ready e1 ?_
    rw [hl1, z.opCopy, (num_loop ..).1]
  · intro x hx
    rw [hin x hx]; exact e3
  · intro x hx
    rw [hin x hx, hlen, z.opCopy, (num_loop ..).2]
  · intro x hx
    rw [hin x hx]
    exact .tailLoop z.opCopy (ih σ2 hag)
  · refine z.feedAgain'.ready e3 ?_
    rw [hlen, z.opNew.2.2.1, num_output]

/-- Stopping. -/
theorem up_stop {σ' : Wires W} {elems others : List (Val W)} (he : elems.length = jo.length)
    (hothers : others.length = rest.length) :
    Runs g (S.along π) (.node σ' P.o (.sum 1 elems :: others) (elems ++ others)) := by
  classical
  have hne3 : P.stopOut ≠ P.stopIn := by
    intro e; have := z.opNew.2.2.2.1; rw [← e, z.opNew.2.2.2.2] at this; cases this
  let σ2 : Wires W := fun m => if m = P.stopIn then outWires (elems ++ others) else
    if m = P.stopOut then outWires [] else σ' m
  have e1 : σ2 P.stopIn = outWires (elems ++ others) := if_pos rfl
  have e2 : σ2 P.stopOut = outWires [] := by
    change (if _ then _ else _) = _
    rw [if_neg hne3, if_pos rfl]
  have e4 : ∀ m, m ∉ g.children P.stop → σ2 m = σ' m := by
    intro m hm
    rw [z.kidsStop] at hm
    simp only [List.mem_cons, List.not_mem_nil, or_false, not_or] at hm
    change (if _ then _ else _) = _
    rw [if_neg hm.1, if_neg hm.2]
  have hl1 : (elems ++ others).length = (jo ++ rest).length := by
    rw [List.length_append, List.length_append, he, hothers]
  have hin : ∀ x, ¬ Inner g P.stop P.stopIn P.stopOut x := by
    rintro x ⟨hx, e1, e2⟩
    rw [z.kidsStop] at hx
    simp only [List.mem_cons, List.not_mem_nil, or_false] at hx
    tauto
  refine .cond (c := P.stop) (row := jo) (σ := σ2) z.opCond (by rw [z.kidsO]; rfl) rfl he ?_
  refine .graph (ins := fun _ => []) (outs := fun _ => []) ⟨_, z.kidsStop⟩ e4 e1 ?_ e2
    (fun x hx => absurd hx (hin x)) (fun x hx => absurd hx (hin x)) (fun x hx => absurd hx (hin x))
    (fun x hx => absurd hx (hin x)) ?_
  · rw [hl1, z.opNew.2.2.2.1, num_input]
  · refine z.feedStop.ready e1 ?_
    rw [hl1, z.opNew.2.2.2.2, num_output]

theorem up {t : Task W} (hr : Runs h S t) : Up h g P jo rest T π S t := by
  classical
  induction hr with
  | @graph ρ σ p0 i0 o0 vals res ins outs hio h1 h2 h3 h4 h5 h6 h7 _ h9 ih =>
    refine ⟨⟨h1, ?_⟩, ?_⟩
    · rintro p hB rfl ρ' ha
      let σ' : Wires W := fun m => if m ∈ g.children p then σ (π m) else ρ' m
      have hσ : ∀ m ∈ g.children p, σ' m = σ (π m) := fun m hm => if_pos hm
      have hσ' : ∀ n, n ∉ g.children p → σ' n = ρ' n := fun n hn => if_neg hn
      have hag := z.agree_after hB (.inl rfl) ha hσ hσ' h1
      obtain ⟨rs, hch⟩ := id hio
      rw [← z.kids p hB] at hch
      obtain ⟨i, tl, e1, ei, e2⟩ := List.map_eq_cons_iff.1 hch
      obtain ⟨o, rest', e3, eo, e4⟩ := List.map_eq_cons_iff.1 e2
      subst ei; subst eo; subst e3
      have hi : i ∈ g.children p := by rw [e1]; simp
      have ho : o ∈ g.children p := by rw [e1]; simp
      have hin : ∀ m, Inner g p i o m → Inner h (P.body π p) (π i) (π o) (π m) := by
        rintro m ⟨hm, hni, hno⟩
        exact ⟨(z.mem_kids hB).2 ⟨m, hm, rfl⟩, fun e => hni (z.inj p m i hB hm hi e),
          fun e => hno (z.inj p m o hB hm ho e)⟩
      have hag' : ∀ n ∈ g.children p, ∀ l ∈ g.links, VLink g l → l.dst = n → σ' l.src = σ (π l.src) := by
        intro n hn l hl hv e
        exact hag l hl (by rw [e]; exact (z.kidsT p n hB hn).1) hv (by rw [e]; exact z.inside hn)
      refine ⟨σ', ?_, hσ, hσ'⟩
      refine .graph (i := i) (o := o) (ins := fun m => ins (π m)) (outs := fun m => outs (π m))
        ⟨rest', e1⟩ hσ' ?_ ?_ ?_ ?_ ?_ ?_ ?_ ?_
      · rw [hσ i hi]; exact h2
      · rw [h3, z.numsO (z.kidsT p i hB hi).1 (z.kidsT p i hB hi).2]
      · rw [hσ o ho]; exact h4
      · intro m hm
        exact z.ready_hg (z.kidsT p m hB hm.1).1 (hag' m hm.1) (h5 _ (hin m hm))
      · intro m hm
        rw [hσ m hm.1]; exact h6 _ (hin m hm)
      · intro m hm
        rw [← z.numsO (z.kidsT p m hB hm.1).1 (z.kidsT p m hB hm.1).2]; exact h7 _ (hin m hm)
      · intro m hm
        exact ih _ (hin m hm) m (z.kidsT p m hB hm.1).1 (z.kidsT p m hB hm.1).2 rfl σ' (z.agree_child hm.1 hag)
      · exact z.ready_hg (z.kidsT p o hB ho).1 (hag' o ho) h9
    · rintro rfl
      refine ⟨?_, fun ρ' ha outs2 hlen hcond => z.up_peeled hio h1 h2 h3 h5 h6 h7 h9 ih ρ' ha outs2 hlen hcond⟩
      obtain ⟨rs, hch⟩ := id hio
      obtain ⟨cs, hkh, -⟩ := z.kidsH
      rw [hkh] at hch
      obtain ⟨rfl, rfl, rfl⟩ : P.i = i0 ∧ P.o = o0 ∧ cs = rs := by simpa using hch
      rw [h9.1, z.opOut]
  | leaf hl => rintro x hT ho rfl ρ' _; exact .leaf (z.leaf_hg hT ho hl)
  | const hop =>
    rintro x hT ho rfl ρ' _
    exact .const ((z.same_h hT ho (by rw [hop]; simp)).trans hop)
  | dfg hop _ ih =>
    rintro x hT ho rfl ρ' ha
    have hs := z.same_h hT ho (by rw [hop]; simp)
    have hxn : x ≠ P.n := by rintro rfl; rw [z.Tn.2, z.opLoop] at hop; cases hop
    obtain ⟨σ', h1, _⟩ := ih.1.2 x (.inl ⟨hT, ho, hxn⟩) (z.body_T hT) ρ' ha
    exact .dfg (hs.trans hop) h1
  | @cond ρ σ n0 c0 tag rows other ots row elems rs outs hop hc hrow hlen _ ih =>
    rintro x hT ho rfl ρ' ha
    have hs := z.same_h hT ho (by rw [hop]; simp)
    have hxn : x ≠ P.n := by rintro rfl; rw [z.Tn.2, z.opLoop] at hop; cases hop
    have hB : P.Body T x := .inl ⟨hT, ho, hxn⟩
    rw [← z.body_T hT, ← z.kids x hB, List.getElem?_map, Option.map_eq_some_iff] at hc
    obtain ⟨c, hc, rfl⟩ := hc
    have hm : c ∈ g.children x := List.mem_of_getElem? hc
    obtain ⟨hTc, hco⟩ := z.kidsT x c hB hm
    have hop' := hs.trans hop
    obtain ⟨σ', h1, _⟩ := ih.1.2 c (.inl ⟨hTc, hco, z.arms x c hT ⟨_, _, _, hop'⟩ hm⟩) (z.body_T hTc) ρ' (z.agree_child hm ha)
    exact .cond hop' hc hrow hlen h1
  | tailLoop hop _ ih =>
    rintro x hT ho rfl ρ' ha
    by_cases hxn : x = P.n
    · subst hxn
      exact (ih.2 z.Tn.2).2 ρ' ha
    · exact .tailLoop ((z.same x hT hxn ho).trans hop) (ih.1 x (.inl ⟨hT, ho, hxn⟩) (z.body_T hT) ρ' ha)
  | @again ρ σ n0 a b c ins elems others outs hop hlen _ _ ih1 ih2 =>
    constructor
    · rintro x hB rfl ρ' ha
      obtain ⟨σ', h1, _⟩ := ih1.1.2 x hB rfl ρ' ha
      have hop' : g.ops x = .tailLoop a b c := by
        rcases hB with ⟨hT, ho, hn⟩ | rfl
        · rw [z.body_T hT] at hop; rw [z.same x hT hn ho, hop]
        · rw [z.body_copy, z.opLoop] at hop; rw [z.opCopy, hop]
      exact .again hop' hlen h1 (ih2.1 x hB rfl ρ' ha)
    · rintro rfl
      rw [z.opLoop] at hop
      obtain ⟨rfl, rfl, rfl⟩ : ji = a ∧ jo = b ∧ rest = c := by simpa using hop
      obtain ⟨hl1, hgr⟩ := ih1.2 rfl
      refine ⟨(ih2.2 rfl).1, fun ρ' ha => ?_⟩
      obtain ⟨σ', h1⟩ := hgr ρ' ha outs (ih2.2 rfl).1 (fun σ' hσ =>
        z.up_again ha hσ hlen (by simpa using hl1) (ih2.2 rfl).1
          (fun ρ'' ha'' => ih2.1 P.copy (.inr rfl) z.body_copy ρ'' ha''))
      exact .dfg z.opDfg h1
  | @done ρ σ n0 a b c ins elems others hop hlen _ ih =>
    constructor
    · rintro x hB rfl ρ' ha
      obtain ⟨σ', h1, _⟩ := ih.1.2 x hB rfl ρ' ha
      have hop' : g.ops x = .tailLoop a b c := by
        rcases hB with ⟨hT, ho, hn⟩ | rfl
        · rw [z.body_T hT] at hop; rw [z.same x hT hn ho, hop]
        · rw [z.body_copy, z.opLoop] at hop; rw [z.opCopy, hop]
      exact .done hop' hlen h1
    · rintro rfl
      rw [z.opLoop] at hop
      obtain ⟨rfl, rfl, rfl⟩ : ji = a ∧ jo = b ∧ rest = c := by simpa using hop
      obtain ⟨hl1, hgr⟩ := ih.2 rfl
      have hl2 : others.length = rest.length := by simpa using hl1
      have hl3 : (elems ++ others).length = (jo ++ rest).length := by
        rw [List.length_append, List.length_append, hlen, hl2]
      refine ⟨hl3, fun ρ' ha => ?_⟩
      obtain ⟨σ', h1⟩ := hgr ρ' ha (elems ++ others) hl3 (fun σ' _ => z.up_stop hlen hl2)
      exact .dfg z.opDfg h1
  | @cfg ρ n0 entry0 rest0 sig ins outs hop hch _ ih =>
    rintro x hT ho rfl ρ' ha
    have hs := z.same_h hT ho (by rw [hop]; simp)
    have hxn : x ≠ P.n := by rintro rfl; rw [z.Tn.2, z.opLoop] at hop; cases hop
    have hB : P.Body T x := .inl ⟨hT, ho, hxn⟩
    rw [← z.body_T hT, ← z.kids x hB] at hch
    obtain ⟨entry, rs, e1, ei, e2⟩ := List.map_eq_cons_iff.1 hch
    have hm : entry ∈ g.children x := by rw [e1]; simp
    exact .cfg (hs.trans hop) e1 (ih entry x ei hm hB ⟨_, hs.trans hop⟩ ρ' ha)
  | @jump ρ σ b0 tag x other y z' rows w row ins elems others outs l hop hrow hlen hl hsrc hport hdst _ _ ih1 ih2 =>
    rintro b q rfl hb hBq hcfg ρ' ha
    obtain ⟨s, sp, t, tp⟩ := l
    simp only [] at hl hsrc hport hdst ih2
    subst hsrc
    obtain ⟨hTb, hbo⟩ := z.kidsT q b hBq hb
    have hs := z.same_h hTb hbo (by rw [hop]; simp)
    have hbn : b ≠ P.n := by rintro rfl; rw [z.Tn.2, z.opLoop] at hop; cases hop
    obtain ⟨t', ht', rfl, hl', et⟩ := z.flow_hg hBq hb hop hl (by rw [hdst]; simp)
    have hop' := hs.trans hop
    have hBb : P.Body T b := .inl ⟨hTb, hbo, hbn⟩
    obtain ⟨σ', h1, h2, h3⟩ := ih1.1.2 b hBb (z.body_T hTb) ρ' (z.agree_child hb ha)
    have hag := z.agree_after hBb (.inr ⟨hb, _, _, _, hop'⟩) ha h2 h3 (by rw [z.body_T hTb]; exact ih1.1.1)
    exact .jump hop' hrow hlen hl' rfl hport (et.trans hdst) h1 (ih2 t' q rfl ht' hBq hcfg σ' hag)
  | @exit ρ σ b0 tag x other ots rows row ins elems others l hop hrow hlen hl hsrc hport hdst _ ih =>
    rintro b q rfl hb hBq hcfg ρ' ha
    obtain ⟨s, sp, t, tp⟩ := l
    simp only [] at hl hsrc hport hdst
    subst hsrc
    obtain ⟨hTb, hbo⟩ := z.kidsT q b hBq hb
    have hs := z.same_h hTb hbo (by rw [hop]; simp)
    have hbn : b ≠ P.n := by rintro rfl; rw [z.Tn.2, z.opLoop] at hop; cases hop
    obtain ⟨t', ht', rfl, hl', et⟩ := z.flow_hg hBq hb hop hl (by rw [hdst]; simp)
    have hop' := hs.trans hop
    obtain ⟨σ', h1, h2, h3⟩ := ih.1.2 b (.inl ⟨hTb, hbo, hbn⟩) (z.body_T hTb) ρ' (z.agree_child hb ha)
    exact .exit hop' hrow hlen hl' rfl hport (et.trans hdst) h1
  | @call ρ σ n0 f ins args outs hc hd hlen hr ih =>
    rintro x hT ho rfl ρ' ha
    have hd' := (z.defn _).2 hd
    obtain ⟨hTf, e1⟩ := z.defnD _ hd'
    obtain ⟨σ', h1, _⟩ := ih.1.2 f (z.defn_body hd') ((z.body_T hTf).trans e1) noWires (fun _ _ _ _ _ => rfl)
    exact .call (z.calls_hg hT ho hc) hd' (by rw [← z.numsO hT ho]; exact hlen) h1

/-- Functions return the same. -/
theorem returns_iff {f : Nat} {args outs : List (Val W)} :
    Returns h S f args outs ↔ Returns g (S.along π) f args outs := by
  constructor
  · rintro ⟨hd, σ, hr⟩
    have hd' := (z.defn f).2 hd
    obtain ⟨hT, e1⟩ := z.defnD f hd'
    obtain ⟨σ', h1, _⟩ := (z.up hr).1.2 f (z.defn_body hd') ((z.body_T hT).trans e1) noWires (fun _ _ _ _ _ => rfl)
    exact ⟨hd', σ', h1⟩
  · rintro ⟨hd, σ', hr⟩
    obtain ⟨hT, e1⟩ := z.defnD f hd
    obtain ⟨_, σ, h1, _⟩ := (z.down hr).1 (z.defn_body hd) noWires (fun _ _ _ _ _ => rfl)
    rw [z.body_T hT, e1] at h1
    exact ⟨(z.defn f).1 hd, σ, h1⟩

end Peels
end Verif.Patch
