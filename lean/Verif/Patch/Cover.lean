import Verif.Patch.Semantics
import Verif.Patch.ValidLemmas

/-!
# Hugrs that look alike from inside

Parts of a Hugr `g` may be copies of parts of a Hugr `h`: each node of `g` stands for a node of `h`.
Then running `g` is running `h`. Calls of `h` may be graphs of `g` that are copies of the function that
is called.
-/
namespace Verif.Patch

open Verif.Graph Verif.Ops Verif.Validate Verif.Dataflow

variable {Meta W E : Type} {h g : Hugr Ops.Op Meta} {D : Nat → Prop} {π R : Nat → Nat}

/-- The meaning of operations and constants, where the nodes stand for others. -/
def _root_.Verif.Dataflow.Sem.along (S : Sem W E) (π : Nat → Nat) : Sem W E :=
  { S with ext := fun n => S.ext (π n), const := fun n => S.const (π n) }

mutual
theorem value_along (S : Sem W E) (π : Nat → Nat) : ∀ c, (S.along π).value c = S.value c
  | .leaf _ => rfl
  | .sum tag vals => by simp only [Sem.value]; rw [values_along S π vals]
theorem values_along (S : Sem W E) (π : Nat → Nat) : ∀ c, (S.along π).values c = S.values c
  | [] => rfl
  | c :: cs => by simp only [Sem.values]; rw [value_along S π c, values_along S π cs]
end

/-- `n` is what it stands for. -/
def Same (h g : Hugr Ops.Op Meta) (π R : Nat → Nat) (n : Nat) : Prop :=
  R n = π n ∧ g.ops n = h.ops (π n)

/-- `n` stands for a call, and is a graph that stands for the body of the function. -/
def Unfolded (h g : Hugr Ops.Op Meta) (π R : Nat → Nat) (n : Nat) : Prop :=
  ∃ sig targs inst sig', h.ops (π n) = .call sig targs inst ∧ g.ops n = .dfg sig' ∧
    sig'.input.length = inst.input.length ∧ sig'.output.length = inst.output.length ∧ IsDefn h (R n) ∧
    (∃ l ∈ h.links, l.dst = π n ∧ l.dstPort = inst.input.length ∧ l.src = R n) ∧
    ∀ l ∈ h.links, l.dst = π n → l.dstPort = inst.input.length → l.src = R n

/-- A link of values. -/
def VLink (g : Hugr Ops.Op Meta) (l : Link) : Prop := l.dstPort < numIns (g.ops l.dst)

def Used (h g : Hugr Ops.Op Meta) (π : Nat → Nat) (n port : Nat) : Prop :=
  port < numIns (g.ops n) ∨ g.ops n = h.ops (π n)

/-- Each node `n` of `g` for which `D` holds stands for the node `π n` of `h`, and its children for the
children of `R n`. -/
structure Cover (h g : Hugr Ops.Op Meta) (D : Nat → Prop) (π R : Nat → Nat) : Prop where
  tree : IsTree g
  treeH : IsTree h
  kids : ∀ n, D n → (g.children n).map π = h.children (R n)
  kidsD : ∀ n c, D n → c ∈ g.children n → D c
  inj : ∀ n a b, D n → a ∈ g.children n → b ∈ g.children n → π a = π b → a = b
  node : ∀ n, D n → Same h g π R n ∨ Unfolded h g π R n
  link : ∀ l ∈ g.links, D l.dst → Used h g π l.dst l.dstPort →
    D l.src ∧ ⟨π l.src, l.srcPort, π l.dst, l.dstPort⟩ ∈ h.links
  lift : ∀ n port s sp, D n → Used h g π n port → ⟨s, sp, π n, port⟩ ∈ h.links →
    ∃ s', ⟨s', sp, n, port⟩ ∈ g.links ∧ π s' = s
  scope : ∀ n q, ∀ l ∈ g.links, D n →
    (q = n ∨ n ∈ g.children q ∧ ∃ x y z, g.ops n = .dataflowBlock x y z) → VLink g l →
    Inside g q l.dst → π l.src ∈ h.children (R n) → l.src ∈ g.children n
  closed : ∀ n, D n → Unfolded h g π R n → ∀ l ∈ g.links, VLink g l → Inside g n l.dst → Inside g n l.src
  defn : ∀ f, IsDefn g f ↔ IsDefn h f
  defnD : ∀ f, IsDefn g f → D f ∧ π f = f ∧ R f = f
  fixed : ∀ l ∈ g.links, D l.dst →
    ((∃ sig targs inst, g.ops l.dst = .call sig targs inst) ∨
      ∃ sig targs inst, g.ops l.dst = .loadFunction sig targs inst) →
    l.dstPort = numIns (g.ops l.dst) → π l.src = l.src
  arms : ∀ n c, D n → (∃ x y z, g.ops n = .conditional x y z) → c ∈ g.children n → Same h g π R c
  flow : ∀ l ∈ g.links, (∃ x y z, g.ops l.src = .dataflowBlock x y z) →
    ∃ q, g.hier.parent l.src = some q ∧ g.hier.parent l.dst = some q
  flowH : ∀ l ∈ h.links, (∃ x y z, h.ops l.src = .dataflowBlock x y z) →
    ∃ q, h.hier.parent l.src = some q ∧ h.hier.parent l.dst = some q

theorem numIns_call (sig : Types.PolyFunc) (targs : List Types.Term) (inst : Types.Signature) :
    numIns (.call sig targs inst) = inst.input.length := by
  have : ∀ l : List Types.Ty, (l.map Kind.value).filter Kind.isValue = l.map Kind.value := fun l =>
    List.filter_eq_self.2 (by simp [Kind.isValue])
  simp [numIns, Op.ports, Kind.isValue, this]

theorem numIns_loadFunction (sig : Types.PolyFunc) (targs : List Types.Term) (inst : Types.Signature) :
    numIns (.loadFunction sig targs inst) = 0 := by
  simp [numIns, Op.ports, Kind.isValue]

theorem num_dfg (sig : Types.Signature) :
    numIns (.dfg sig) = sig.input.length ∧ numOuts (.dfg sig) = sig.output.length := by
  have : ∀ l : List Types.Ty, (l.map Kind.value).filter Kind.isValue = l.map Kind.value := fun l =>
    List.filter_eq_self.2 (by simp [Kind.isValue])
  simp [numIns, numOuts, Op.ports, Kind.isValue, this]

theorem numOuts_call (sig : Types.PolyFunc) (targs : List Types.Term) (inst : Types.Signature) :
    numOuts (.call sig targs inst) = inst.output.length := by
  have : ∀ l : List Types.Ty, (l.map Kind.value).filter Kind.isValue = l.map Kind.value := fun l =>
    List.filter_eq_self.2 (by simp [Kind.isValue])
  simp [numOuts, Op.ports, Kind.isValue, this]

/-- The wires that are used inside `p` are the same. -/
def AgreeOn (g : Hugr Ops.Op Meta) (π : Nat → Nat) (p : Nat) (ρ' ρ : Wires W) : Prop :=
  ∀ l ∈ g.links, VLink g l → Inside g p l.dst → ρ' l.src = ρ (π l.src)

/-- There are no values inside unfolded calls yet. -/
def Clean (h g : Hugr Ops.Op Meta) (D : Nat → Prop) (π R : Nat → Nat) (p : Nat) (ρ' : Wires W) : Prop :=
  ∀ u, D u → Unfolded h g π R u → (u = p ∨ Inside g p u) → ∀ m, Inside g u m → ρ' m = noWires m

theorem Inside.trans {a b c : Nat} (h1 : Inside g a b) (h2 : Inside g b c) : Inside g a c := by
  obtain ⟨p, hp, ha⟩ := h2
  exact ⟨p, hp, ha.trans h1.above⟩

namespace Cover

variable (z : Cover h g D π R) {S : Sem W E}
include z

theorem child {p c : Nat} (hc : c ∈ g.children p) : g.hier.parent c = some p := (z.tree.child_iff _ _).1 hc

theorem inside {p c : Nat} (hc : c ∈ g.children p) : Inside g p c := .child (z.child hc)

theorem agree_child {p c : Nat} (hc : c ∈ g.children p) {ρ' ρ : Wires W} (ha : AgreeOn g π p ρ' ρ) :
    AgreeOn g π c ρ' ρ := fun l hl hv hi => ha l hl hv ((z.inside hc).trans hi)

theorem clean_child {p c : Nat} (hc : c ∈ g.children p) {ρ' : Wires W} (ha : Clean h g D π R p ρ') :
    Clean h g D π R c ρ' := by
  intro u hD hu hor
  refine ha u hD hu (.inr ?_)
  rcases hor with rfl | hor
  · exact z.inside hc
  · exact (z.inside hc).trans hor

theorem nums {n : Nat} (hD : D n) : numIns (h.ops (π n)) = numIns (g.ops n) ∧
    numOuts (h.ops (π n)) = numOuts (g.ops n) := by
  rcases z.node n hD with ⟨_, e⟩ | ⟨sig, targs, inst, sig', e1, e2, e3, e4, _⟩
  · rw [e]; exact ⟨rfl, rfl⟩
  · rw [e1, e2, numIns_call, numOuts_call, (num_dfg sig').1, (num_dfg sig').2]
    exact ⟨e3.symm, e4.symm⟩

theorem same_g {n : Nat} (hD : D n) (hn : ∀ sig, g.ops n ≠ .dfg sig) : Same h g π R n := by
  rcases z.node n hD with hs | ⟨_, _, _, sig', _, e2, _⟩
  · exact hs
  · exact absurd e2 (hn sig')

theorem same_h {n : Nat} (hD : D n) (hn : ∀ sig targs inst, h.ops (π n) ≠ .call sig targs inst) :
    Same h g π R n := by
  rcases z.node n hD with hs | ⟨sig, targs, inst, _, e1, _⟩
  · exact hs
  · exact absurd e1 (hn sig targs inst)

theorem ready_gh {n : Nat} (hD : D n) {σ' σ : Wires W}
    (ha : ∀ l ∈ g.links, VLink g l → l.dst = n → σ' l.src = σ (π l.src)) {ins : List (Val W)}
    (hr : Ready g σ' n ins) : Ready h σ (π n) ins := by
  obtain ⟨h1, h2⟩ := hr
  refine ⟨by rw [h1, (z.nums hD).1], fun i v hv => ?_⟩
  obtain ⟨l, hl, rfl, rfl, hv'⟩ := h2 i v hv
  have hlt : l.dstPort < numIns (g.ops l.dst) := by
    rw [← h1]; exact (List.getElem?_eq_some_iff.1 hv).1
  refine ⟨_, (z.link l hl hD (.inl hlt)).2, rfl, rfl, ?_⟩
  rw [← ha l hl hlt rfl]; exact hv'

theorem ready_hg {n : Nat} (hD : D n) {σ' σ : Wires W}
    (ha : ∀ l ∈ g.links, VLink g l → l.dst = n → σ' l.src = σ (π l.src)) {ins : List (Val W)}
    (hr : Ready h σ (π n) ins) : Ready g σ' n ins := by
  obtain ⟨h1, h2⟩ := hr
  rw [(z.nums hD).1] at h1
  refine ⟨h1, fun i v hv => ?_⟩
  obtain ⟨l, hl, e1, e2, hv'⟩ := h2 i v hv
  have hlt : i < numIns (g.ops n) := by
    rw [← h1]; exact (List.getElem?_eq_some_iff.1 hv).1
  obtain ⟨s, sp, t, tp⟩ := l
  simp only [] at e1 e2 hv'
  subst e1; subst e2
  obtain ⟨s', hl', e⟩ := z.lift n tp s sp hD (.inl hlt) hl
  refine ⟨_, hl', rfl, rfl, ?_⟩
  rw [ha _ hl' hlt rfl, e]; exact hv'

/-- The wires after running a graph. -/
theorem agree_after {p q : Nat} (hD : D p)
    (hq : q = p ∨ p ∈ g.children q ∧ ∃ x y z, g.ops p = .dataflowBlock x y z)
    {ρ' ρ σ' σ : Wires W} (ha : AgreeOn g π q ρ' ρ) (h1 : ∀ m ∈ g.children p, σ' m = σ (π m))
    (h2 : ∀ n, n ∉ g.children p → σ' n = ρ' n) (h3 : ∀ n, n ∉ h.children (R p) → σ n = ρ n) :
    AgreeOn g π q σ' σ := by
  intro l hl hv hi
  by_cases hm : l.src ∈ g.children p
  · exact h1 _ hm
  · rw [h2 _ hm, h3, ha l hl hv hi]
    exact fun hc => hm (z.scope p q l hl hD hq hv hi hc)

theorem clean_after {p : Nat} {ρ' σ' : Wires W} (q : Nat)
    (hq : q = p ∨ p ∈ g.children q ∧ ∃ x y z, g.ops p = .dataflowBlock x y z)
    (ha : Clean h g D π R q ρ') (h2 : ∀ n, n ∉ g.children p → σ' n = ρ' n) {c : Nat}
    (hc : c ∈ g.children q) : Clean h g D π R c σ' := by
  intro u hD hu hor m hm
  have hqu : Inside g q u := by
    rcases hor with rfl | hor
    · exact z.inside hc
    · exact (z.inside hc).trans hor
  rw [h2, ha u hD hu (.inr hqu) m hm]
  intro hmp
  have hmp := z.child hmp
  obtain ⟨x, hx, hxu⟩ := hm
  rw [hmp] at hx; cases hx
  rcases hq with rfl | ⟨hpq, a, b, c', hop⟩
  · -- the child of `p` that contains `m` would be `p` itself
    obtain ⟨y, hy, hyq⟩ := hqu
    exact z.tree.acyclic _ _ hy (hyq.trans hxu)
  · -- `u` is inside the parent of the block, so it is the block, which is not unfolded
    have hpq := z.child hpq
    rcases above_cases hxu with e | ⟨y, hy, hyu⟩
    · obtain ⟨_, _, _, sig', _, e2, _⟩ := hu
      rw [← e, hop] at e2; cases e2
    · rw [hpq] at hy; cases hy
      obtain ⟨y, hy, hyq⟩ := hqu
      exact z.tree.acyclic _ _ hy (hyq.trans hyu)

theorem clean_all {p : Nat} {ρ' σ' : Wires W} (q : Nat)
    (hq : p ∈ g.children q ∧ ∃ x y z, g.ops p = .dataflowBlock x y z)
    (hcfg : ∃ sig, g.ops q = .cfg sig) (ha : Clean h g D π R q ρ')
    (h2 : ∀ n, n ∉ g.children p → σ' n = ρ' n) : Clean h g D π R q σ' := by
  intro u hD hu hor m hm
  rw [h2, ha u hD hu hor m hm]
  intro hmp
  have hmp := z.child hmp
  obtain ⟨x, hx, hxu⟩ := hm
  rw [hmp] at hx; cases hx
  obtain ⟨hpq, a, b, c', hop⟩ := hq
  have hpq := z.child hpq
  rcases above_cases hxu with e | ⟨y, hy, hyu⟩
  · obtain ⟨_, _, _, sig', _, e2, _⟩ := hu
    rw [← e, hop] at e2; cases e2
  · rw [hpq] at hy; cases hy
    rcases hor with rfl | ⟨y, hy, hyq⟩
    · obtain ⟨_, _, _, sig', _, e2, _⟩ := hu
      obtain ⟨sig, e⟩ := hcfg
      rw [e] at e2; cases e2
    · exact z.tree.acyclic _ _ hy (hyq.trans hyu)

theorem agree_unfolded {n : Nat} (hD : D n) (hu : Unfolded h g π R n) {ρ' : Wires W} (hc : Clean h g D π R n ρ') :
    AgreeOn g π n ρ' noWires := fun l hl hv hi =>
  (hc n hD hu (.inl rfl) _ (z.closed n hD hu l hl hv hi)).trans rfl

/-! ## From `g` to `h` -/

theorem calls_gh {n f : Nat} {ins args : List (Val W)} (hD : D n) (hc : Calls g n ins f args) :
    Calls h (π n) ins f args := by
  cases hc with
  | direct hop hl hd hp =>
    rename_i sig targs inst l
    subst hd
    have hs := z.same_g hD (by rw [hop]; simp)
    have hf := z.fixed l hl hD (.inl ⟨_, _, _, hop⟩) (by rw [hp, hop, numIns_call])
    have := (z.link l hl hD (.inr hs.2)).2
    rw [hf] at this
    exact .direct (l := ⟨l.src, l.srcPort, π l.dst, l.dstPort⟩) (hs.2 ▸ hop) this rfl hp
  | indirect hop =>
    have hs := z.same_g hD (by rw [hop]; simp)
    exact .indirect (hs.2 ▸ hop)

theorem leaf_gh {n : Nat} {ins outs : List (Val W)} (hD : D n) (hl : Leaf g (S.along π) n ins outs) :
    Leaf h S (π n) ins outs := by
  cases hl with
  | makeTuple hop => exact .makeTuple ((z.same_g hD (by rw [hop]; simp)).2 ▸ hop)
  | unpackTuple hop hl => exact .unpackTuple ((z.same_g hD (by rw [hop]; simp)).2 ▸ hop) hl
  | tag hop => exact .tag ((z.same_g hD (by rw [hop]; simp)).2 ▸ hop)
  | loadConstant hop hl hd hp hc =>
    rename_i t t' l
    subst hd
    have hs := z.same_g hD (by rw [hop]; simp)
    obtain ⟨hDs, hl'⟩ := z.link l hl hD (.inr hs.2)
    have hs' := z.same_g hDs (by rw [hc]; simp)
    rw [value_along]
    exact .loadConstant (l := ⟨π l.src, l.srcPort, π l.dst, l.dstPort⟩) (hs.2 ▸ hop) hl' rfl hp (hs'.2 ▸ hc)
  | loadFunction hop hl hd hp =>
    rename_i sig targs inst l
    subst hd
    have hs := z.same_g hD (by rw [hop]; simp)
    have hf := z.fixed l hl hD (.inr ⟨_, _, _, hop⟩) (by rw [hp, hop, numIns_loadFunction])
    have := (z.link l hl hD (.inr hs.2)).2
    rw [hf] at this
    exact .loadFunction (l := ⟨l.src, l.srcPort, π l.dst, l.dstPort⟩) (hs.2 ▸ hop) this rfl hp
  | ext hop h1 h2 h3 => exact .ext ((z.same_g hD (by rw [hop]; simp)).2 ▸ hop) h1 h2 h3
  | external hc h1 h2 h3 =>
    exact .external (z.calls_gh hD hc) (fun hd => h1 ((z.defn _).2 hd)) (by rw [(z.nums hD).2]; exact h2) h3
  | unknown hop h1 h2 =>
    exact .unknown ((z.same_g hD (by rw [hop]; simp)).2 ▸ hop) (by rw [(z.nums hD).2]; exact h1) h2

omit z in
/-- What follows for `h` from running `g`. -/
def Down (h g : Hugr Ops.Op Meta) (D : Nat → Prop) (π R : Nat → Nat) (S : Sem W E) : Task W → Prop
  | .graph ρ' p vals outs σ' => D p → ∀ ρ, AgreeOn g π p ρ' ρ → Clean h g D π R p ρ' →
      (∀ n, n ∉ g.children p → σ' n = ρ' n) ∧
      ∃ σ, Runs h S (.graph ρ (R p) vals outs σ) ∧ (∀ m ∈ g.children p, σ' m = σ (π m)) ∧
        ∀ n, n ∉ h.children (R p) → σ n = ρ n
  | .node ρ' n ins outs => D n → outs.length = numOuts (g.ops n) → ∀ ρ, AgreeOn g π n ρ' ρ → Clean h g D π R n ρ' →
      Runs h S (.node ρ (π n) ins outs)
  | .loop ρ' n ins outs => D n → ∀ ρ, AgreeOn g π n ρ' ρ → Clean h g D π R n ρ' →
      Runs h S (.loop ρ (π n) ins outs)
  | .blocks ρ' b ins outs => ∀ q, b ∈ g.children q → D q → (∃ sig, g.ops q = .cfg sig) → ∀ ρ, AgreeOn g π q ρ' ρ →
      Clean h g D π R q ρ' → Runs h S (.blocks ρ (π b) ins outs)

omit z in
/-- The child of `p` that stands for `m`. -/
def back (g : Hugr Ops.Op Meta) (π : Nat → Nat) (p m : Nat) : Nat :=
  ((g.children p).find? (fun x => π x = m)).getD 0

theorem back_eq {p x : Nat} (hD : D p) (hx : x ∈ g.children p) : back g π p (π x) = x := by
  unfold back
  cases hf : (g.children p).find? (fun y => π y = π x) with
  | none => exact absurd (List.find?_eq_none.1 hf x hx) (by simp)
  | some y =>
    have h1 := List.mem_of_find?_eq_some hf
    have h2 := List.find?_some hf
    simp only [decide_eq_true_eq] at h2
    exact z.inj p y x hD h1 hx h2

theorem mem_kids {p m : Nat} (hD : D p) : m ∈ h.children (R p) ↔ ∃ x ∈ g.children p, π x = m := by
  rw [← z.kids p hD, List.mem_map]

theorem io {p i o : Nat} (hD : D p) (hio : HasIO g p i o) : HasIO h (R p) (π i) (π o) := by
  obtain ⟨rest, hr⟩ := hio
  exact ⟨rest.map π, by rw [← z.kids p hD, hr]; rfl⟩

theorem down {t : Task W} (hr : Runs g (S.along π) t) : Down h g D π R S t := by
  classical
  induction hr with
  | @graph ρ' σ' p i o vals res ins outs hio h1 h2 h3 h4 h5 h6 h7 _ h9 ih =>
    intro hD ρ ha hc
    refine ⟨h1, ?_⟩
    let σ : Wires W := fun m => if m ∈ h.children (R p) then σ' (back g π p m) else ρ m
    have hσ : ∀ m ∈ g.children p, σ' m = σ (π m) := by
      intro m hm
      have : π m ∈ h.children (R p) := (z.mem_kids hD).2 ⟨m, hm, rfl⟩
      change _ = if _ then _ else _
      rw [if_pos this, z.back_eq hD hm]
    have hσ' : ∀ n, n ∉ h.children (R p) → σ n = ρ n := fun n hn => if_neg hn
    have hag := z.agree_after hD (.inl rfl) ha hσ h1 hσ'
    obtain ⟨rest, hch⟩ := id hio
    have hi : i ∈ g.children p := by rw [hch]; simp
    have ho : o ∈ g.children p := by rw [hch]; simp
    have hin : ∀ m, Inner h (R p) (π i) (π o) m → ∃ x, Inner g p i o x ∧ π x = m := by
      rintro m ⟨hm, hni, hno⟩
      obtain ⟨x, hx, rfl⟩ := (z.mem_kids hD).1 hm
      exact ⟨x, ⟨hx, fun e => hni (by rw [e]), fun e => hno (by rw [e])⟩, rfl⟩
    have hag' : ∀ n ∈ g.children p, ∀ l ∈ g.links, VLink g l → l.dst = n → σ' l.src = σ (π l.src) := by
      intro n hn l hl hv e
      exact hag l hl hv (by rw [e]; exact z.inside hn)
    refine ⟨σ, ?_, hσ, hσ'⟩
    refine .graph (ins := fun m => ins (back g π p m)) (outs := fun m => outs (back g π p m))
      (z.io hD hio) hσ' ?_ ?_ ?_ ?_ ?_ ?_ ?_ ?_
    · rw [← hσ i hi]; exact h2
    · rw [h3, (z.nums (z.kidsD p i hD hi)).2]
    · rw [← hσ o ho]; exact h4
    · intro m hm
      obtain ⟨x, hx, rfl⟩ := hin m hm
      rw [z.back_eq hD hx.1]
      exact z.ready_gh (z.kidsD p x hD hx.1) (hag' x hx.1) (h5 x hx)
    · intro m hm
      obtain ⟨x, hx, rfl⟩ := hin m hm
      rw [z.back_eq hD hx.1, ← hσ x hx.1]; exact h6 x hx
    · intro m hm
      obtain ⟨x, hx, rfl⟩ := hin m hm
      rw [z.back_eq hD hx.1, (z.nums (z.kidsD p x hD hx.1)).2]; exact h7 x hx
    · intro m hm
      obtain ⟨x, hx, rfl⟩ := hin m hm
      rw [z.back_eq hD hx.1]
      exact ih x hx (z.kidsD p x hD hx.1) (h7 x hx) σ (z.agree_child hx.1 hag) (z.clean_after p (.inl rfl) hc h1 hx.1)
    · exact z.ready_gh (z.kidsD p o hD ho) (hag' o ho) h9
  | leaf hl => intro hD _ ρ _ _; exact .leaf (z.leaf_gh hD hl)
  | const hop =>
    intro hD _ ρ _ _
    exact .const ((z.same_g hD (by rw [hop]; simp)).2 ▸ hop)
  | @dfg ρ' σ' n sig ins outs hop hr ih =>
    intro hD hlen ρ ha hc
    rcases z.node n hD with hs | hu
    · obtain ⟨_, σ, h1, _, _⟩ := ih hD ρ ha hc
      rw [hs.1] at h1
      exact .dfg (hs.2 ▸ hop) h1
    · obtain ⟨_, σ, h1, _, _⟩ := ih hD noWires (z.agree_unfolded hD hu hc) hc
      obtain ⟨sig0, targs, inst, sig', e1, e2, e3, e4, e5, ⟨l, hl, d1, d2, d3⟩, _⟩ := hu
      exact .call (d3 ▸ .direct e1 hl d1 d2) e5 (by rw [(z.nums hD).2]; exact hlen) h1
  | @cond ρ' σ' n c tag rows other ots row elems rest outs hop hc hrow hlen _ ih =>
    intro hD _ ρ ha hcl
    have hs := z.same_g hD (by rw [hop]; simp)
    have hm : c ∈ g.children n := List.mem_of_getElem? hc
    have hDc := z.kidsD n c hD hm
    obtain ⟨_, σ, h1, _, _⟩ := ih hDc ρ (z.agree_child hm ha) (z.clean_child hm hcl)
    have hcase : R c = π c := (z.arms n c hD ⟨_, _, _, hop⟩ hm).1
    rw [hcase] at h1
    refine .cond (hs.2 ▸ hop) ?_ hrow hlen h1
    rw [← hs.1, ← z.kids n hD, List.getElem?_map, hc]; rfl
  | tailLoop hop _ ih =>
    intro hD _ ρ ha hc
    exact .tailLoop ((z.same_g hD (by rw [hop]; simp)).2 ▸ hop) (ih hD ρ ha hc)
  | again hop hlen _ _ ih1 ih2 =>
    intro hD ρ ha hc
    have hs := z.same_g hD (by rw [hop]; simp)
    obtain ⟨_, σ, h1, _, _⟩ := ih1 hD ρ ha hc
    rw [hs.1] at h1
    exact .again (hs.2 ▸ hop) hlen h1 (ih2 hD ρ ha hc)
  | done hop hlen _ ih =>
    intro hD ρ ha hc
    have hs := z.same_g hD (by rw [hop]; simp)
    obtain ⟨_, σ, h1, _, _⟩ := ih hD ρ ha hc
    rw [hs.1] at h1
    exact .done (hs.2 ▸ hop) hlen h1
  | @cfg ρ' n entry rest sig ins outs hop hch _ ih =>
    intro hD _ ρ ha hc
    have hs := z.same_g hD (by rw [hop]; simp)
    have hm : entry ∈ g.children n := by rw [hch]; simp
    refine .cfg (rest := rest.map π) (hs.2 ▸ hop) ?_ (ih n hm hD ⟨_, hop⟩ ρ ha hc)
    rw [← hs.1, ← z.kids n hD, hch]; rfl
  | @jump ρ' σ' b tag x other y z' rows w row ins elems others outs l hop hrow hlen hl hsrc hport hdst _ _ ih1 ih2 =>
    intro q hb hDq hcfg ρ ha hc
    subst hsrc
    have hDb := z.kidsD q _ hDq hb
    have hs := z.same_g hDb (by rw [hop]; simp)
    obtain ⟨q', f1, f2⟩ := z.flow l hl ⟨_, _, _, hop⟩
    rw [z.child hb] at f1; cases f1
    have hd : l.dst ∈ g.children q := (z.tree.child_iff _ _).2 f2
    have hDd := z.kidsD q _ hDq hd
    have hsd := z.same_g hDd (by rw [hdst]; simp)
    obtain ⟨h0, σ, h1, h2, h3⟩ := ih1 hDb ρ (z.agree_child hb ha) (z.clean_child hb hc)
    have hq : q = l.src ∨ l.src ∈ g.children q ∧ ∃ x y z, g.ops l.src = .dataflowBlock x y z :=
      .inr ⟨hb, _, _, _, hop⟩
    have hag := z.agree_after hDb hq ha h2 h0 h3
    have hcl : Clean h g D π R q σ' := z.clean_all q ⟨hb, _, _, _, hop⟩ hcfg hc h0
    rw [hs.1] at h1
    exact .jump (l := ⟨π l.src, l.srcPort, π l.dst, l.dstPort⟩) (hs.2 ▸ hop) hrow hlen
      (z.link l hl hDd (.inr hsd.2)).2 rfl hport (hsd.2 ▸ hdst) h1 (ih2 q hd hDq hcfg σ hag hcl)
  | @exit ρ' σ' b tag x other ots rows row ins elems others l hop hrow hlen hl hsrc hport hdst _ ih =>
    intro q hb hDq hcfg ρ ha hc
    subst hsrc
    have hDb := z.kidsD q _ hDq hb
    have hs := z.same_g hDb (by rw [hop]; simp)
    obtain ⟨q', f1, f2⟩ := z.flow l hl ⟨_, _, _, hop⟩
    rw [z.child hb] at f1; cases f1
    have hd : l.dst ∈ g.children q := (z.tree.child_iff _ _).2 f2
    have hDd := z.kidsD q _ hDq hd
    have hsd := z.same_g hDd (by rw [hdst]; simp)
    obtain ⟨h0, σ, h1, h2, h3⟩ := ih hDb ρ (z.agree_child hb ha) (z.clean_child hb hc)
    rw [hs.1] at h1
    exact .exit (l := ⟨π l.src, l.srcPort, π l.dst, l.dstPort⟩) (hs.2 ▸ hop) hrow hlen
      (z.link l hl hDd (.inr hsd.2)).2 rfl hport (hsd.2 ▸ hdst) h1
  | call hc hd hlen _ ih =>
    intro hD _ ρ _ _
    obtain ⟨hDf, e1, e2⟩ := z.defnD _ hd
    obtain ⟨_, σ, h1, _, _⟩ := ih hDf noWires (fun _ _ _ _ => rfl) (fun _ _ _ _ _ _ => rfl)
    rw [e2] at h1
    exact .call (z.calls_gh hD hc) ((z.defn _).1 hd) (by rw [(z.nums hD).2]; exact hlen) h1

/-! ## From `h` to `g` -/

theorem calls_hg {n f : Nat} {ins args : List (Val W)} (hD : D n) (hs : Same h g π R n)
    (hc : Calls h (π n) ins f args) : Calls g n ins f args := by
  generalize hm : π n = m at hc
  cases hc with
  | direct hop hl hd hp =>
    rename_i sig targs inst l
    obtain ⟨s, sp, t, tp⟩ := l
    simp only [] at hd hp hl
    subst hd; subst hm
    have hop' := hs.2.trans hop
    obtain ⟨s', hl', e⟩ := z.lift n tp s sp hD (.inr hs.2) hl
    have hf := z.fixed _ hl' hD (.inl ⟨_, _, _, hop'⟩) (by simp only []; rw [hp, hop', numIns_call])
    simp only [] at hf
    rw [hf] at e; subst e
    exact .direct (l := ⟨s', sp, n, tp⟩) hop' hl' rfl hp
  | indirect hop => subst hm; exact .indirect (hs.2.trans hop)

theorem leaf_hg {n : Nat} {ins outs : List (Val W)} (hD : D n) (hl : Leaf h S (π n) ins outs) :
    Leaf g (S.along π) n ins outs := by
  have hs : Same h g π R n := by
    rcases z.node n hD with hs | ⟨sig, targs, inst, sig', e1, e2, e3, e4, e5, e6, e7⟩
    · exact hs
    · exfalso
      generalize hm : π n = m at hl
      rw [hm] at e1
      cases hl with
      | makeTuple hop | tag hop | loadFunction hop => rw [e1] at hop; cases hop
      | unpackTuple hop => rw [e1] at hop; cases hop
      | loadConstant hop => rw [e1] at hop; cases hop
      | ext hop => rw [e1] at hop; cases hop
      | unknown hop => rw [e1] at hop; cases hop
      | external hc h1 =>
        cases hc with
        | direct hop hl hd hp =>
          rw [e1] at hop; cases hop
          exact h1 (e7 _ hl (hd.trans hm.symm) hp ▸ e5)
        | indirect hop => rw [e1] at hop; cases hop
  generalize hm : π n = m at hl
  cases hl with
  | makeTuple hop => subst hm; exact .makeTuple (hs.2.trans hop)
  | unpackTuple hop hl => subst hm; exact .unpackTuple (hs.2.trans hop) hl
  | tag hop => subst hm; exact .tag (hs.2.trans hop)
  | loadConstant hop hl hd hp hc =>
    rename_i t t' l
    obtain ⟨s, sp, d, dp⟩ := l
    simp only [] at hd hp hl hc
    subst hd; subst hm
    obtain ⟨s', hl', e⟩ := z.lift n dp s sp hD (.inr hs.2) hl
    subst e
    have hDs := (z.link _ hl' hD (.inr hs.2)).1
    have hs' := z.same_h hDs (by simp only []; rw [hc]; simp)
    have := Leaf.loadConstant (S := S.along π) (hs.2.trans hop) hl' rfl hp (hs'.2.trans hc)
    rw [value_along] at this
    exact this
  | loadFunction hop hl hd hp =>
    rename_i sig targs inst l
    obtain ⟨s, sp, d, dp⟩ := l
    simp only [] at hd hp hl
    subst hd; subst hm
    have hop' := hs.2.trans hop
    obtain ⟨s', hl', e⟩ := z.lift n dp s sp hD (.inr hs.2) hl
    have hf := z.fixed _ hl' hD (.inr ⟨_, _, _, hop'⟩) (by simp only []; rw [hp, hop', numIns_loadFunction])
    simp only [] at hf
    rw [hf] at e; subst e
    exact .loadFunction (l := ⟨s', sp, n, dp⟩) hop' hl' rfl hp
  | ext hop h1 h2 h3 => subst hm; exact .ext (hs.2.trans hop) h1 h2 h3
  | external hc h1 h2 h3 =>
    subst hm
    exact .external (z.calls_hg hD hs hc) (fun hd => h1 ((z.defn _).1 hd)) (by rw [← (z.nums hD).2]; exact h2) h3
  | unknown hop h1 h2 =>
    subst hm
    exact .unknown (hs.2.trans hop) (by rw [← (z.nums hD).2]; exact h1) h2

omit z in
/-- What follows for `g` from running `h`. -/
def Up (h g : Hugr Ops.Op Meta) (D : Nat → Prop) (π R : Nat → Nat) (S : Sem W E) : Task W → Prop
  | .graph ρ p0 vals outs σ => (∀ n, n ∉ h.children p0 → σ n = ρ n) ∧
      ∀ p, D p → R p = p0 → ∀ ρ', AgreeOn g π p ρ' ρ → Clean h g D π R p ρ' →
      ∃ σ', Runs g (S.along π) (.graph ρ' p vals outs σ') ∧ (∀ m ∈ g.children p, σ' m = σ (π m)) ∧
        ∀ n, n ∉ g.children p → σ' n = ρ' n
  | .node ρ n0 ins outs => ∀ n, D n → π n = n0 → ∀ ρ', AgreeOn g π n ρ' ρ → Clean h g D π R n ρ' →
      Runs g (S.along π) (.node ρ' n ins outs)
  | .loop ρ n0 ins outs => ∀ n, D n → π n = n0 → ∀ ρ', AgreeOn g π n ρ' ρ → Clean h g D π R n ρ' →
      Runs g (S.along π) (.loop ρ' n ins outs)
  | .blocks ρ b0 ins outs => ∀ b q, π b = b0 → b ∈ g.children q → D q → (∃ sig, g.ops q = .cfg sig) →
      ∀ ρ', AgreeOn g π q ρ' ρ → Clean h g D π R q ρ' → Runs g (S.along π) (.blocks ρ' b ins outs)

theorem child_h {p c : Nat} (hD : D p) (hc : c ∈ g.children p) : h.hier.parent (π c) = some (R p) :=
  (z.treeH.child_iff _ _).1 ((z.mem_kids hD).2 ⟨c, hc, rfl⟩)

/-- The links between blocks. -/
theorem flow_hg {q b : Nat} (hDq : D q) (hb : b ∈ g.children q) {x y : List Types.Ty} {w : List (List Types.Ty)}
    (hop : h.ops (π b) = .dataflowBlock x y w) {sp t tp : Nat} (hl : ⟨π b, sp, t, tp⟩ ∈ h.links)
    (ht : ∀ sig targs inst, h.ops t ≠ .call sig targs inst) :
    ∃ t', t' ∈ g.children q ∧ π t' = t ∧ ⟨b, sp, t', tp⟩ ∈ g.links ∧ g.ops t' = h.ops t := by
  obtain ⟨q0, f1, f2⟩ := z.flowH _ hl ⟨_, _, _, hop⟩
  simp only [] at f1 f2
  rw [z.child_h hDq hb] at f1; cases f1
  obtain ⟨t', ht', rfl⟩ := (z.mem_kids hDq).1 ((z.treeH.child_iff _ _).2 f2)
  have hDt := z.kidsD q t' hDq ht'
  have hst := z.same_h hDt ht
  obtain ⟨s', hl', e⟩ := z.lift t' tp _ sp hDt (.inr hst.2) hl
  have hDs := (z.link _ hl' hDt (.inr hst.2)).1
  have hss := z.same_h hDs (by simp only []; rw [e, hop]; simp)
  obtain ⟨q', g1, g2⟩ := z.flow _ hl' ⟨_, _, _, by simp only [] at hss ⊢; rw [hss.2, e, hop]⟩
  simp only [] at g1 g2
  rw [z.child ht'] at g2; cases g2
  have := z.inj q s' b hDq ((z.tree.child_iff _ _).2 g1) hb e
  subst this
  exact ⟨t', ht', rfl, hl', hst.2⟩

theorem up {t : Task W} (hr : Runs h S t) : Up h g D π R S t := by
  classical
  induction hr with
  | @graph ρ σ p0 i0 o0 vals res ins outs hio h1 h2 h3 h4 h5 h6 h7 _ h9 ih =>
    refine ⟨h1, ?_⟩
    rintro p hD rfl ρ' ha hc
    let σ' : Wires W := fun m => if m ∈ g.children p then σ (π m) else ρ' m
    have hσ : ∀ m ∈ g.children p, σ' m = σ (π m) := fun m hm => if_pos hm
    have hσ' : ∀ n, n ∉ g.children p → σ' n = ρ' n := fun n hn => if_neg hn
    have hag := z.agree_after hD (.inl rfl) ha hσ hσ' h1
    obtain ⟨rest, hch⟩ := id hio
    rw [← z.kids p hD] at hch
    obtain ⟨i, tl, e1, ei, e2⟩ := List.map_eq_cons_iff.1 hch
    obtain ⟨o, rest', e3, eo, e4⟩ := List.map_eq_cons_iff.1 e2
    subst ei; subst eo; subst e3
    have hi : i ∈ g.children p := by rw [e1]; simp
    have ho : o ∈ g.children p := by rw [e1]; simp
    have hin : ∀ m, Inner g p i o m → Inner h (R p) (π i) (π o) (π m) := by
      rintro m ⟨hm, hni, hno⟩
      exact ⟨(z.mem_kids hD).2 ⟨m, hm, rfl⟩, fun e => hni (z.inj p m i hD hm hi e),
        fun e => hno (z.inj p m o hD hm ho e)⟩
    have hag' : ∀ n ∈ g.children p, ∀ l ∈ g.links, VLink g l → l.dst = n → σ' l.src = σ (π l.src) := by
      intro n hn l hl hv e
      exact hag l hl hv (by rw [e]; exact z.inside hn)
    refine ⟨σ', ?_, hσ, hσ'⟩
    refine .graph (i := i) (o := o) (ins := fun m => ins (π m)) (outs := fun m => outs (π m))
      ⟨rest', e1⟩ hσ' ?_ ?_ ?_ ?_ ?_ ?_ ?_ ?_
    · rw [hσ i hi]; exact h2
    · rw [h3, (z.nums (z.kidsD p i hD hi)).2]
    · rw [hσ o ho]; exact h4
    · intro m hm
      exact z.ready_hg (z.kidsD p m hD hm.1) (hag' m hm.1) (h5 _ (hin m hm))
    · intro m hm
      rw [hσ m hm.1]; exact h6 _ (hin m hm)
    · intro m hm
      rw [← (z.nums (z.kidsD p m hD hm.1)).2]; exact h7 _ (hin m hm)
    · intro m hm
      exact ih _ (hin m hm) m (z.kidsD p m hD hm.1) rfl σ' (z.agree_child hm.1 hag)
        (z.clean_after p (.inl rfl) hc hσ' hm.1)
    · exact z.ready_hg (z.kidsD p o hD ho) (hag' o ho) h9
  | leaf hl => rintro n hD rfl ρ' _ _; exact .leaf (z.leaf_hg hD hl)
  | const hop =>
    rintro n hD rfl ρ' _ _
    exact .const ((z.same_h hD (by rw [hop]; simp)).2.trans hop)
  | dfg hop _ ih =>
    rintro n hD rfl ρ' ha hc
    have hs := z.same_h hD (by rw [hop]; simp)
    obtain ⟨σ', h1, _⟩ := ih.2 n hD hs.1 ρ' ha hc
    exact .dfg (hs.2.trans hop) h1
  | @cond ρ σ n0 c0 tag rows other ots row elems rest outs hop hc hrow hlen _ ih =>
    rintro n hD rfl ρ' ha hcl
    have hs := z.same_h hD (by rw [hop]; simp)
    rw [← hs.1, ← z.kids n hD, List.getElem?_map, Option.map_eq_some_iff] at hc
    obtain ⟨c, hc, rfl⟩ := hc
    have hm : c ∈ g.children n := List.mem_of_getElem? hc
    have hDc := z.kidsD n c hD hm
    have hop' := hs.2.trans hop
    have hsc := z.arms n c hD ⟨_, _, _, hop'⟩ hm
    obtain ⟨σ', h1, _⟩ := ih.2 c hDc hsc.1 ρ' (z.agree_child hm ha) (z.clean_child hm hcl)
    exact .cond hop' hc hrow hlen h1
  | tailLoop hop _ ih =>
    rintro n hD rfl ρ' ha hc
    exact .tailLoop ((z.same_h hD (by rw [hop]; simp)).2.trans hop) (ih n hD rfl ρ' ha hc)
  | again hop hlen _ _ ih1 ih2 =>
    rintro n hD rfl ρ' ha hc
    have hs := z.same_h hD (by rw [hop]; simp)
    obtain ⟨σ', h1, _⟩ := ih1.2 n hD hs.1 ρ' ha hc
    exact .again (hs.2.trans hop) hlen h1 (ih2 n hD rfl ρ' ha hc)
  | done hop hlen _ ih =>
    rintro n hD rfl ρ' ha hc
    have hs := z.same_h hD (by rw [hop]; simp)
    obtain ⟨σ', h1, _⟩ := ih.2 n hD hs.1 ρ' ha hc
    exact .done (hs.2.trans hop) hlen h1
  | @cfg ρ n0 entry0 rest0 sig ins outs hop hch _ ih =>
    rintro n hD rfl ρ' ha hc
    have hs := z.same_h hD (by rw [hop]; simp)
    rw [← hs.1, ← z.kids n hD] at hch
    obtain ⟨entry, rest, e1, ei, e2⟩ := List.map_eq_cons_iff.1 hch
    have hm : entry ∈ g.children n := by rw [e1]; simp
    exact .cfg (hs.2.trans hop) e1 (ih entry n ei hm hD ⟨_, hs.2.trans hop⟩ ρ' ha hc)
  | @jump ρ σ b0 tag x other y z' rows w row ins elems others outs l hop hrow hlen hl hsrc hport hdst _ _ ih1 ih2 =>
    rintro b q rfl hb hDq hcfg ρ' ha hc
    obtain ⟨s, sp, t, tp⟩ := l
    simp only [] at hl hsrc hport hdst ih2
    subst hsrc
    have hDb := z.kidsD q b hDq hb
    have hs := z.same_h hDb (by rw [hop]; simp)
    obtain ⟨t', ht', rfl, hl', et⟩ := z.flow_hg hDq hb hop hl (by rw [hdst]; simp)
    have hop' := hs.2.trans hop
    obtain ⟨σ', h1, h2, h3⟩ := ih1.2 b hDb hs.1 ρ' (z.agree_child hb ha) (z.clean_child hb hc)
    have hag := z.agree_after hDb (.inr ⟨hb, _, _, _, hop'⟩) ha h2 h3 (by rw [hs.1]; exact ih1.1)
    have hcl : Clean h g D π R q σ' := z.clean_all q ⟨hb, _, _, _, hop'⟩ hcfg hc h3
    exact .jump hop' hrow hlen hl' rfl hport (et.trans hdst) h1 (ih2 t' q rfl ht' hDq hcfg σ' hag hcl)
  | @exit ρ σ b0 tag x other ots rows row ins elems others l hop hrow hlen hl hsrc hport hdst _ ih =>
    rintro b q rfl hb hDq hcfg ρ' ha hc
    obtain ⟨s, sp, t, tp⟩ := l
    simp only [] at hl hsrc hport hdst
    subst hsrc
    have hDb := z.kidsD q b hDq hb
    have hs := z.same_h hDb (by rw [hop]; simp)
    obtain ⟨t', ht', rfl, hl', et⟩ := z.flow_hg hDq hb hop hl (by rw [hdst]; simp)
    have hop' := hs.2.trans hop
    obtain ⟨σ', h1, h2, h3⟩ := ih.2 b hDb hs.1 ρ' (z.agree_child hb ha) (z.clean_child hb hc)
    exact .exit hop' hrow hlen hl' rfl hport (et.trans hdst) h1
  | @call ρ σ n0 f ins args outs hc hd hlen hr ih =>
    rintro n hD rfl ρ' ha hcl
    rcases z.node n hD with hs | hu
    · obtain ⟨hDf, e1, e2⟩ := z.defnD _ ((z.defn _).2 hd)
      obtain ⟨σ', h1, _⟩ := ih.2 f hDf e2 noWires (fun _ _ _ _ => rfl) (fun _ _ _ _ _ _ => rfl)
      exact .call (z.calls_hg hD hs hc) ((z.defn _).2 hd) (by rw [← (z.nums hD).2]; exact hlen) h1
    · have hag := z.agree_unfolded hD hu hcl
      obtain ⟨sig, targs, inst, sig', e1, e2, e3, e4, e5, e6, e7⟩ := hu
      cases hc with
      | direct hop hl hd' hp =>
        rw [e1] at hop; cases hop
        have hf := e7 _ hl hd' hp
        obtain ⟨σ', h1, _⟩ := ih.2 n hD hf.symm ρ' hag hcl
        exact .dfg e2 h1
      | indirect hop => rw [e1] at hop; cases hop

/-- Functions return the same. -/
theorem returns_iff {f : Nat} {args outs : List (Val W)} :
    Returns h S f args outs ↔ Returns g (S.along π) f args outs := by
  constructor
  · rintro ⟨hd, σ, hr⟩
    have hd' := (z.defn f).2 hd
    obtain ⟨hD, e1, e2⟩ := z.defnD f hd'
    obtain ⟨σ', h1, _⟩ := (z.up hr).2 f hD e2 noWires (fun _ _ _ _ => rfl) (fun _ _ _ _ _ _ => rfl)
    exact ⟨hd', σ', h1⟩
  · rintro ⟨hd, σ', hr⟩
    obtain ⟨hD, e1, e2⟩ := z.defnD f hd
    obtain ⟨_, σ, h1, _⟩ := z.down hr hD noWires (fun _ _ _ _ => rfl) (fun _ _ _ _ _ _ => rfl)
    rw [e2] at h1
    exact ⟨(z.defn f).1 hd, σ, h1⟩

end Cover
end Verif.Patch
