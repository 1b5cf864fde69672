import Verif.Patch.SimpleReplaceDegree
import Verif.Patch.SimpleReplaceMeans
import Verif.Patch.InlineDfgRuns

/-!
# Replacing a subgraph: the values on the wires
-/
namespace Verif.Patch

open Verif.Graph Verif.Ops Verif.Passes Verif.Validate Verif.Dataflow

variable {Meta W E : Type} {C C' : Validate.Context} {h r g : Hugr Ops.Op Meta} {s : Subgraph} {i o p : Nat}
  {f : Nat → Nat}

/-! ## Functions without bodies -/

theorem bodiless_iff {n : Nat} {op : Ops.Op} (h1 : ∀ nm sg, op ≠ .funcDefn nm sg) (h2 : ∀ nm sg, op ≠ .funcDecl nm sg) :
    (bodiless h).ops n = op ↔ h.ops n = op := by
  cases hop : h.ops n <;> simp only [bodiless, hop]
  constructor
  · intro e; exact absurd e.symm (h2 _ _)
  · intro e; exact absurd e.symm (h1 _ _)

theorem bodiless_defn (n : Nat) : ¬ IsDefn (bodiless h) n := by
  rintro ⟨nm, sg, e⟩
  cases hop : h.ops n <;> simp only [bodiless, hop] at e <;> cases e

theorem bodiless_ports (n : Nat) (dir : Ops.Dir) : ((bodiless h).ops n).ports dir = (h.ops n).ports dir := by
  cases hop : h.ops n <;> simp only [bodiless, hop]
  cases dir <;> rfl

theorem bodiless_ins (n : Nat) : numIns ((bodiless h).ops n) = numIns (h.ops n) := by
  unfold numIns; rw [bodiless_ports]

theorem bodiless_outs (n : Nat) : numOuts ((bodiless h).ops n) = numOuts (h.ops n) := by
  unfold numOuts; rw [bodiless_ports]

theorem bodiless_ready {σ : Wires W} {n : Nat} {ins : List (Val W)} : Ready (bodiless h) σ n ins ↔ Ready h σ n ins := by
  unfold Ready
  rw [bodiless_ins]
  exact Iff.rfl

theorem bodiless_calls {n k : Nat} {ins args : List (Val W)} : Calls (bodiless h) n ins k args ↔ Calls h n ins k args := by
  constructor
  · intro hc
    cases hc with
    | direct h1 h2 h3 h4 => exact .direct ((bodiless_iff (by simp) (by simp)).1 h1) h2 h3 h4
    | indirect h1 => exact .indirect ((bodiless_iff (by simp) (by simp)).1 h1)
  · intro hc
    cases hc with
    | direct h1 h2 h3 h4 => exact .direct ((bodiless_iff (by simp) (by simp)).2 h1) h2 h3 h4
    | indirect h1 => exact .indirect ((bodiless_iff (by simp) (by simp)).2 h1)

mutual
theorem value_of_leaf {S S' : Sem W E} (hl : S.leaf = S'.leaf) : ∀ c, S.value c = S'.value c
  | .leaf _ => by simp only [Sem.value]; rw [hl]
  | .sum tag vals => by simp only [Sem.value]; rw [values_of_leaf hl vals]
theorem values_of_leaf {S S' : Sem W E} (hl : S.leaf = S'.leaf) : ∀ c, S.values c = S'.values c
  | [] => rfl
  | c :: cs => by simp only [Sem.values]; rw [value_of_leaf hl c, values_of_leaf hl cs]
end

theorem answering_value (S : Sem W E) (R : Answers W) (c : CVal E) : (answering S R).value c = S.value c :=
  value_of_leaf (by rfl) c

/-- What a node without children does, apart from what functions do. -/
theorem leaf_open {S : Sem W E} {R : Answers W} {n : Nat} {ins outs : List (Val W)} (hl : Leaf h S n ins outs)
    (hR : ∀ k args outs, ¬ IsDefn h k → S.external k args outs → R k args outs) :
    Leaf (bodiless h) (answering S R) n ins outs := by
  cases hl with
  | makeTuple h1 => exact .makeTuple ((bodiless_iff (by simp) (by simp)).2 h1)
  | unpackTuple h1 h2 => exact .unpackTuple ((bodiless_iff (by simp) (by simp)).2 h1) h2
  | tag h1 => exact .tag ((bodiless_iff (by simp) (by simp)).2 h1)
  | loadConstant h1 h2 h3 h4 h5 =>
    rw [← answering_value S R]
    exact .loadConstant (S := answering S R) ((bodiless_iff (by simp) (by simp)).2 h1) h2 h3 h4 ((bodiless_iff (by simp) (by simp)).2 h5)
  | loadFunction h1 h2 h3 h4 => exact .loadFunction ((bodiless_iff (by simp) (by simp)).2 h1) h2 h3 h4
  | ext h1 h2 h3 h4 => exact .ext ((bodiless_iff (by simp) (by simp)).2 h1) h2 h3 h4
  | external h1 h2 h3 h4 =>
    exact .external (bodiless_calls.2 h1) (bodiless_defn _) (by rw [bodiless_outs]; exact h3) (hR _ _ _ h2 h4)
  | unknown h1 h2 h3 => exact .unknown ((bodiless_iff (by simp) (by simp)).2 h1) (by rw [bodiless_outs]; exact h2) h3

theorem leaf_close {S : Sem W E} {R : Answers W} {n : Nat} {ins outs : List (Val W)}
    (hl : Leaf (bodiless h) (answering S R) n ins outs) :
    (Leaf h S n ins outs ∧ ∀ k args, ¬ Calls h n ins k args) ∨
    ∃ k args, Calls h n ins k args ∧ outs.length = numOuts (h.ops n) ∧ R k args outs := by
  have hno : ∀ {op : Ops.Op}, h.ops n = op → (∀ sg targs inst, op ≠ .call sg targs inst) → (∀ sg, op ≠ .callIndirect sg) →
      ∀ k args, ¬ Calls h n ins k args := by
    intro op hop h1 h2 k args hc
    cases hc with
    | direct ho => exact h1 _ _ _ (hop.symm.trans ho)
    | indirect ho => exact h2 _ (hop.symm.trans ho)
  cases hl with
  | makeTuple h1 =>
    have h1 := (bodiless_iff (by simp) (by simp)).1 h1
    exact .inl ⟨.makeTuple h1, hno h1 (by simp) (by simp)⟩
  | unpackTuple h1 h2 =>
    have h1 := (bodiless_iff (by simp) (by simp)).1 h1
    exact .inl ⟨.unpackTuple h1 h2, hno h1 (by simp) (by simp)⟩
  | tag h1 =>
    have h1 := (bodiless_iff (by simp) (by simp)).1 h1
    exact .inl ⟨.tag h1, hno h1 (by simp) (by simp)⟩
  | loadConstant h1 h2 h3 h4 h5 =>
    left
    have h1 := (bodiless_iff (by simp) (by simp)).1 h1
    rw [answering_value S R]
    exact ⟨.loadConstant (S := S) h1 h2 h3 h4 ((bodiless_iff (by simp) (by simp)).1 h5), hno h1 (by simp) (by simp)⟩
  | loadFunction h1 h2 h3 h4 =>
    have h1 := (bodiless_iff (by simp) (by simp)).1 h1
    exact .inl ⟨.loadFunction h1 h2 h3 h4, hno h1 (by simp) (by simp)⟩
  | ext h1 h2 h3 h4 =>
    have h1 := (bodiless_iff (by simp) (by simp)).1 h1
    exact .inl ⟨.ext h1 h2 h3 h4, hno h1 (by simp) (by simp)⟩
  | external h1 h2 h3 h4 => exact .inr ⟨_, _, bodiless_calls.1 h1, by rw [← bodiless_outs]; exact h3, h4⟩
  | unknown h1 h2 h3 =>
    have h1 := (bodiless_iff (by simp) (by simp)).1 h1
    refine .inl ⟨.unknown h1 (by rw [← bodiless_outs]; exact h2) h3, fun k args hc => ?_⟩
    cases hc with
    | direct ho => rw [h1] at ho; cases ho

/-- What the functions of a Hugr return. -/
def Answer (h : Hugr Ops.Op Meta) (S : Sem W E) : Answers W := fun k args outs =>
  Returns h S k args outs ∨ ¬ IsDefn h k ∧ S.external k args outs

/-- A node without children does not begin a graph. -/
theorem no_graph {S : Sem W E} {n : Nat} (hc : h.children n = []) {ρ σ : Wires W} {ins outs : List (Val W)}
    (hr : Runs h S (.graph ρ n ins outs σ)) : False := by
  cases hr with
  | graph hio =>
    obtain ⟨rest, e⟩ := hio
    rw [hc] at e; cases e

theorem no_loop {S : Sem W E} {n : Nat} (hc : h.children n = []) {ρ : Wires W} {ins outs : List (Val W)}
    (hr : Runs h S (.loop ρ n ins outs)) : False := by
  cases hr with
  | again _ _ h1 _ => exact no_graph hc h1
  | done _ _ h1 => exact no_graph hc h1

/-- A node without children whose calls are answered elsewhere. -/
theorem node_close {S : Sem W E} {R : Answers W} {n : Nat} (hc : h.children n = []) {ρ : Wires W} {ins outs : List (Val W)}
    (hr : Runs (bodiless h) (answering S R) (.node ρ n ins outs)) (ρ' : Wires W) :
    Runs h S (.node ρ' n ins outs) ∨ ∃ k args, Calls h n ins k args ∧ outs.length = numOuts (h.ops n) ∧ R k args outs := by
  have hc' : (bodiless h).children n = [] := hc
  cases hr with
  | leaf h1 =>
    rcases leaf_close h1 with h1 | h1
    · exact .inl (.leaf h1.1)
    · exact .inr h1
  | const h1 => exact .inl (.const ((bodiless_iff (by simp) (by simp)).1 h1))
  | dfg _ h2 => exact (no_graph hc' h2).elim
  | cond _ h2 => rw [hc'] at h2; simp at h2
  | tailLoop _ h2 => exact (no_loop hc' h2).elim
  | cfg _ h2 _ => rw [hc'] at h2; cases h2
  | call _ h2 => exact (bodiless_defn _ h2).elim

/-- The ports of values come first. -/
theorem in_lt {op : Ops.Op} (ht : op.tagOk = true) {port : Nat} {t : Types.Ty}
    (hp : (op.ports .incoming)[port]? = some (.value t)) : port < numIns op := by
  rw [numIns_eq ht]
  obtain ⟨s, hs, hports, ho⟩ := ports_eq op .incoming ht
  have hl : (sigIns op) = (sigRow (s.getD ⟨[], []⟩) .incoming) := by
    unfold sigIns; rw [hs]; cases s <;> simp [sigRow]
  rw [hports, ← hl] at hp
  by_contra hno
  rw [List.append_assoc, List.getElem?_append_right (by simpa using hno)] at hp
  have hm := List.mem_of_getElem? hp
  rcases List.mem_append.1 hm with hm | hm
  · have := static_isStatic op .incoming _ (by simpa using hm)
    simp [Kind.isStatic] at this
  · obtain ⟨hn, he⟩ := List.mem_replicate.1 hm
    obtain ⟨k, hk⟩ := Option.isSome_iff_exists.1 (ho hn)
    rw [hk] at he
    have := other_isOther op .incoming k hk
    simp only [Option.getD_some] at he
    rw [← he] at this
    simp [Kind.isOther] at this

theorem choose_list {α : Type} {n : Nat} {P : Nat → α → Prop} (hp : ∀ k, k < n → ∃ v, P k v) :
    ∃ L : List α, L.length = n ∧ ∀ k v, L[k]? = some v → P k v := by
  induction n with
  | zero => exact ⟨[], rfl, by simp⟩
  | succ n ih =>
    obtain ⟨L, h1, h2⟩ := ih fun k hk => hp k (by omega)
    obtain ⟨v, hv⟩ := hp n (by omega)
    refine ⟨L ++ [v], by simp [h1], fun k w hk => ?_⟩
    rw [List.getElem?_append] at hk
    split at hk
    · exact h2 k w hk
    · rename_i hlt
      have hlen := (List.getElem?_eq_some_iff.1 hk).1
      simp only [List.length_singleton] at hlen
      have : k = n := by omega
      subst this
      rw [h1, Nat.sub_self] at hk
      simp only [List.getElem?_cons_zero, Option.some.injEq] at hk
      subst hk
      exact hv

namespace SwapAt

variable (z : SwapAt C C' h r g p i o s f)
include z

/-! ## Operations -/

theorem node_op {n : Nat} (hn : n ∈ s.nodes) : DataflowChild (h.ops n) := by
  have hc := z.valid.contains _ _ (z.removable.parent n hn)
  have hb := z.removable.region
  unfold MayContain at hc
  cases hop : h.ops p <;> rw [hop] at hb hc <;> simp [Validate.body] at hb <;> exact hc.2

theorem kept_of {n : Nat} (hn : ¬ DataflowChild (h.ops n)) : n ∉ s.nodes := fun hm => hn (z.node_op hm)

/-- There are no functions inside a dataflow region. -/
theorem not_decl {a : Nat} (ha : Fresh r i o a) (nm : String) (sg : Types.PolyFunc) : r.ops a ≠ .funcDecl nm sg := by
  intro hop
  obtain ⟨q, hq, hab⟩ := ha.1
  have hc := z.validR.contains _ _ hq
  have hb := z.body.region
  have hm : r.ops q = .module := by
    rw [hop] at hc
    unfold MayContain at hc
    cases hop2 : r.ops q <;> rw [hop2] at hc <;> simp_all [DataflowChild]
  rcases above_cases hab with e | ⟨w, hw, hw'⟩
  · rw [← e, hm] at hb; cases hb
  · have := z.validR.contains _ _ hw
    rw [hm] at this
    unfold MayContain at this
    cases hop2 : r.ops w <;> rw [hop2] at this <;> first | exact this | exact this.2

theorem bodiless_new {x : Nat} (hx : Fresh r i o x) : (bodiless r).ops x = r.ops x :=
  (bodiless_iff (z.not_defn hx).1 (z.not_decl hx)).2 rfl

theorem live_new {x : Nat} (hx : Fresh r i o x) : r.live x = true := by
  obtain ⟨q, hq⟩ := z.has_parent hx
  exact (z.treeR.parent_live _ _ hq).1

theorem isDefn_iff (hh : Forgets opsInfo.toOpInfo h) (hg : Forgets opsInfo.toOpInfo g) (k : Nat) :
    IsDefn g k ↔ IsDefn h k := by
  constructor
  · rintro ⟨nm, sg, e⟩
    cases hl : g.live k with
    | false =>
      have := hg k hl
      rw [e] at this; cases this
    | true =>
      rcases z.cases2 hl with ⟨h1, h2⟩ | ⟨x, hx, rfl⟩
      · exact ⟨nm, sg, by rw [← z.ops_old h1 h2]; exact e⟩
      · rw [z.ops_new hx] at e
        exact absurd e ((z.not_defn hx).1 _ _)
  · rintro ⟨nm, sg, e⟩
    cases hl : h.live k with
    | false =>
      have := hh k hl
      rw [e] at this; cases this
    | true => exact ⟨nm, sg, by rw [z.ops_old hl (z.kept_of (by rw [e]; exact id))]; exact e⟩

/-! ## Kinds at the boundary -/

/-- What is not a value does not leave the subgraph. -/
theorem src_kept {l : Link} (hl : l ∈ h.links) (hd : l.dst ∉ s.nodes) {kind : Kind}
    (hk : ((h.ops l.dst).ports .incoming)[l.dstPort]? = some kind) (h1 : ∀ t, kind ≠ .value t) (h2 : kind ≠ .stateOrder) :
    l.src ∉ s.nodes := by
  intro hs
  obtain ⟨kind', k1, k2⟩ := link_kinds z.valid hl
  rw [hk] at k2; cases k2
  have hm := (z.sep.leaves l hl hs hd (by rw [k1]; simpa using h2)).1
  obtain ⟨j, hj, _⟩ := z.out_index hm
  obtain ⟨t, ht, _⟩ := z.output_kind hj
  simp only [srcKind] at k1
  rw [ht] at k1; cases k1
  exact h1 t rfl

/-- Links that are not of values stay. -/
theorem other_link {l : Link} (hd : h.live l.dst = true) (hk : l.dst ∉ s.nodes) {kind : Kind}
    (hkind : ((h.ops l.dst).ports .incoming)[l.dstPort]? = some kind) (h1 : ∀ t, kind ≠ .value t) (h2 : kind ≠ .stateOrder) :
    l ∈ g.links ↔ l ∈ h.links := by
  constructor
  · intro hl
    rcases (z.replaced.links l).1 hl with ⟨h, _⟩ | hn
    · exact h
    · cases hn with
      | inner _ _ h3 => exact absurd rfl (z.old hd h3)
      | incoming _ h3 h4 => exact absurd rfl (z.old hd (z.wired.start _ _ _ h3 h4))
      | outgoing _ _ hu =>
        obtain ⟨t, ht, _⟩ := z.uses_kind hu
        simp only [] at hkind
        rw [hkind] at ht
        exact absurd (Option.some.inj ht) (h1 t)
      | through _ _ hu =>
        obtain ⟨t, ht, _⟩ := z.uses_kind hu
        simp only [] at hkind
        rw [hkind] at ht
        exact absurd (Option.some.inj ht) (h1 t)
  · intro hl
    exact z.link_old hl (z.src_kept hl hk hkind h1 h2) hk

/-- The replacement does not call functions by name. -/
theorem no_function {x port : Nat} {sg : Types.PolyFunc} (hx : Fresh r i o x)
    (hk : ((r.ops x).ports .incoming)[port]? = some (.function sg)) : False := by
  have hd := z.validR.inDegree x port _ (z.live_new hx) hk
  obtain ⟨l, hl, h1, h2⟩ : ∃ l ∈ r.links, l.dst = x ∧ l.dstPort = port := by
    rw [← count_linksTo] at hd
    simp only [InDegreeOk, inCount] at hd
    obtain ⟨l, hl, hp⟩ := List.countP_pos_iff.1 (show 0 < _ from hd)
    simp only [Bool.and_eq_true, decide_eq_true_eq] at hp
    exact ⟨l, hl, hp.1, hp.2⟩
  obtain ⟨kind, k1, k2⟩ := link_kinds z.validR hl
  rw [h1, h2, hk] at k2; cases k2
  simp only [srcKind] at k1
  have hm := List.mem_of_getElem? k1
  have hfn : (∃ nm sg, r.ops l.src = .funcDefn nm sg) ∨ ∃ nm sg, r.ops l.src = .funcDecl nm sg := by
    cases hop : r.ops l.src <;> rw [hop] at hm <;> simp [Op.ports] at hm <;> simp
  by_cases hi : l.src = i
  · obtain ⟨_, _, _, _, _, e, _⟩ := z.children
    rw [hi, e] at hfn
    rcases hfn with ⟨_, _, e⟩ | ⟨_, _, e⟩ <;> cases e
  · have hs := z.fresh_src hl (by rw [h1]; exact hx) hi
    rcases hfn with ⟨_, _, e⟩ | ⟨_, _, e⟩
    · exact (z.not_defn hs).1 _ _ e
    · exact z.not_decl hs _ _ e

theorem no_call {x : Nat} (hx : Fresh r i o x) (sg : Types.PolyFunc) (targs : List Types.Term) (inst : Types.Signature) :
    r.ops x ≠ .call sg targs inst ∧ r.ops x ≠ .loadFunction sg targs inst := by
  constructor
  · intro e
    refine z.no_function (port := inst.input.length) (sg := sg) hx ?_
    rw [e]
    simp [Op.ports]
  · intro e
    refine z.no_function (port := 0) (sg := sg) hx ?_
    rw [e]
    simp [Op.ports]

/-! ## Calls and leaves -/

theorem calls_old {n k : Nat} (hn : h.live n = true) (hk : n ∉ s.nodes) {ins args : List (Val W)} :
    Calls g n ins k args ↔ Calls h n ins k args := by
  have hop := z.ops_old hn hk
  have key : ∀ {sig : Types.PolyFunc} {targs : List Types.Term} {inst : Types.Signature} {l : Link},
      h.ops n = .call sig targs inst → l.dst = n → l.dstPort = inst.input.length → (l ∈ g.links ↔ l ∈ h.links) := by
    intro sig targs inst l h1 h2 h3
    refine z.other_link (kind := .function sig) (by rw [h2]; exact hn) (by rw [h2]; exact hk) ?_ (by simp) (by simp)
    rw [h2, h1, h3]
    simp [Op.ports]
  constructor
  · intro hc
    cases hc with
    | direct h1 h2 h3 h4 =>
      rw [hop] at h1
      exact .direct h1 ((key h1 h3 h4).1 h2) h3 h4
    | indirect h1 => rw [hop] at h1; exact .indirect h1
  · intro hc
    cases hc with
    | direct h1 h2 h3 h4 => exact .direct (hop.trans h1) ((key h1 h3 h4).2 h2) h3 h4
    | indirect h1 => exact .indirect (hop.trans h1)

theorem calls_new {x k : Nat} (hx : Fresh r i o x) {ins args : List (Val W)} :
    Calls g (f x) ins k args ↔ Calls r x ins k args := by
  have hop := z.ops_new hx
  constructor
  · intro hc
    cases hc with
    | direct h1 h2 h3 h4 => rw [hop] at h1; exact absurd h1 (z.no_call hx _ _ _).1
    | indirect h1 => rw [hop] at h1; exact .indirect h1
  · intro hc
    cases hc with
    | direct h1 h2 h3 h4 => exact absurd h1 (z.no_call hx _ _ _).1
    | indirect h1 => exact .indirect (hop.trans h1)

variable {S Sr S' : Sem W E}

theorem leaf_old (hS : Merges h r s i o f S Sr S') (hdef : ∀ k, IsDefn g k ↔ IsDefn h k) {n : Nat} (hn : h.live n = true)
    (hk : n ∉ s.nodes) {ins outs : List (Val W)} : Leaf g S' n ins outs ↔ Leaf h S n ins outs := by
  have hop := z.ops_old hn hk
  have hval := value_of_leaf hS.leaf
  have key : ∀ {kind : Kind} {l : Link}, l.dst = n → ((h.ops n).ports .incoming)[l.dstPort]? = some kind →
      (∀ t, kind ≠ .value t) → kind ≠ .stateOrder → (l ∈ g.links ↔ l ∈ h.links) := by
    intro kind l h1 h2 h3 h4
    exact z.other_link (by rw [h1]; exact hn) (by rw [h1]; exact hk) (by rw [h1]; exact h2) h3 h4
  have keep : ∀ {kind : Kind} {l : Link}, l ∈ h.links → l.dst = n → ((h.ops n).ports .incoming)[l.dstPort]? = some kind →
      (∀ t, kind ≠ .value t) → kind ≠ .stateOrder → h.live l.src = true ∧ l.src ∉ s.nodes := by
    intro kind l hl h1 h2 h3 h4
    exact ⟨(z.live_link hl).1, z.src_kept hl (by rw [h1]; exact hk) (by rw [h1]; exact h2) h3 h4⟩
  constructor
  · intro hl
    cases hl with
    | makeTuple h1 => exact .makeTuple (hop.symm.trans h1)
    | unpackTuple h1 h2 => exact .unpackTuple (hop.symm.trans h1) h2
    | tag h1 => exact .tag (hop.symm.trans h1)
    | @loadConstant t t' l h1 h2 h3 h4 h5 =>
      have h1 := hop.symm.trans h1
      have hp : ((h.ops n).ports .incoming)[l.dstPort]? = some (.const t) := by rw [h1, h4]; rfl
      have hl := (key h3 hp (by simp) (by simp)).1 h2
      obtain ⟨a, b⟩ := keep hl h3 hp (by simp) (by simp)
      rw [hval, hS.const_old _ a b]
      exact .loadConstant h1 hl h3 h4 ((z.ops_old a b).symm.trans h5)
    | @loadFunction sig targs inst l h1 h2 h3 h4 =>
      have h1 := hop.symm.trans h1
      have hp : ((h.ops n).ports .incoming)[l.dstPort]? = some (.function sig) := by rw [h1, h4]; rfl
      exact .loadFunction h1 ((key h3 hp (by simp) (by simp)).1 h2) h3 h4
    | ext h1 h2 h3 h4 => rw [hS.ext_old n hn hk] at h4; exact .ext (hop.symm.trans h1) h2 h3 h4
    | external h1 h2 h3 h4 =>
      rw [hS.external] at h4
      exact .external ((z.calls_old hn hk).1 h1) (by rw [← hdef]; exact h2) (by rw [← hop]; exact h3) h4
    | unknown h1 h2 h3 =>
      rw [hS.unknown] at h3
      exact .unknown (hop.symm.trans h1) (by rw [← hop]; exact h2) h3
  · intro hl
    cases hl with
    | makeTuple h1 => exact .makeTuple (hop.trans h1)
    | unpackTuple h1 h2 => exact .unpackTuple (hop.trans h1) h2
    | tag h1 => exact .tag (hop.trans h1)
    | @loadConstant t t' l h1 h2 h3 h4 h5 =>
      have hp : ((h.ops n).ports .incoming)[l.dstPort]? = some (.const t) := by rw [h1, h4]; rfl
      obtain ⟨a, b⟩ := keep h2 h3 hp (by simp) (by simp)
      rw [← hval, ← hS.const_old _ a b]
      exact .loadConstant (hop.trans h1) ((key h3 hp (by simp) (by simp)).2 h2) h3 h4 ((z.ops_old a b).trans h5)
    | @loadFunction sig targs inst l h1 h2 h3 h4 =>
      have hp : ((h.ops n).ports .incoming)[l.dstPort]? = some (.function sig) := by rw [h1, h4]; rfl
      exact .loadFunction (hop.trans h1) ((key h3 hp (by simp) (by simp)).2 h2) h3 h4
    | ext h1 h2 h3 h4 => rw [← hS.ext_old n hn hk] at h4; exact .ext (hop.trans h1) h2 h3 h4
    | external h1 h2 h3 h4 =>
      rw [← hS.external] at h4
      exact .external ((z.calls_old hn hk).2 h1) (by rw [hdef]; exact h2) (by rw [hop]; exact h3) h4
    | unknown h1 h2 h3 =>
      rw [← hS.unknown] at h3
      exact .unknown (hop.trans h1) (by rw [hop]; exact h2) h3

/-- A link to a port of the replacement that is not for a value. -/
theorem other_new {l : Link} {x : Nat} (hx : Fresh r i o x) {t : Types.Ty}
    (hk : ((r.ops x).ports .incoming)[l.dstPort]? = some (.const t)) (hd : l.dst = f x) (hl : l ∈ g.links) :
    ∃ y, Fresh r i o y ∧ l.src = f y ∧ ⟨y, l.srcPort, x, l.dstPort⟩ ∈ r.links := by
  rcases (z.replaced.links l).1 hl with ⟨h1, _, _⟩ | hn
  · exact absurd hd (z.old (z.live_link h1).2 hx)
  · cases hn with
    | inner h1 h2 h3 =>
      cases z.replaced.injective _ _ h3 hx hd
      exact ⟨_, h2, rfl, h1⟩
    | incoming h1 h2 h3 =>
      cases z.replaced.injective _ _ (z.wired.start _ _ _ h2 h3) hx hd
      obtain ⟨kind, k1, k2⟩ := link_kinds z.validR h2
      simp only [] at hk k2
      rw [hk] at k2; cases k2
      obtain ⟨_, _, _, _, _, e, _⟩ := z.children
      simp only [srcKind] at k1
      rw [e] at k1
      have := List.mem_of_getElem? k1
      simp [Op.ports] at this
    | outgoing _ _ hu =>
      obtain ⟨_, _, _, _, h3, _⟩ := z.uses_link hu
      exact absurd hd (z.old (z.live_link h3).2 hx)
    | through _ _ hu =>
      obtain ⟨_, _, _, _, h3, _⟩ := z.uses_link hu
      exact absurd hd (z.old (z.live_link h3).2 hx)

theorem leaf_new (hS : Merges h r s i o f S Sr S') {R : Answers W} {x : Nat} (hx : Fresh r i o x)
    {ins outs : List (Val W)} (hl : Leaf (bodiless r) (answering Sr R) x ins outs) :
    Leaf g S' (f x) ins outs ∨ ∃ k args, Calls g (f x) ins k args ∧ outs.length = numOuts (g.ops (f x)) ∧ R k args outs := by
  have hop := z.ops_new hx
  rcases leaf_close hl with ⟨hl, hno⟩ | ⟨k, args, h1, h2, h3⟩
  · left
    cases hl with
    | makeTuple h1 => exact .makeTuple (hop.trans h1)
    | unpackTuple h1 h2 => exact .unpackTuple (hop.trans h1) h2
    | tag h1 => exact .tag (hop.trans h1)
    | @loadConstant t t' l h1 h2 h3 h4 h5 =>
      have hi : l.src ≠ i := by
        intro e
        obtain ⟨_, _, _, _, _, e', _⟩ := z.children
        rw [e, e'] at h5; cases h5
      have hs := z.fresh_src h2 (by rw [h3]; exact hx) hi
      have hl := z.link_new h2 hs (by rw [h3]; exact hx)
      rw [h3, h4] at hl
      rw [← value_of_leaf hS.leaf_new, ← hS.const_new _ hs]
      exact .loadConstant (l := ⟨f l.src, l.srcPort, f x, 0⟩) (hop.trans h1) hl rfl rfl ((z.ops_new hs).trans h5)
    | loadFunction h1 => exact absurd h1 (z.no_call hx _ _ _).2
    | ext h1 h2 h3 h4 => rw [← hS.ext_new x hx] at h4; exact .ext (hop.trans h1) h2 h3 h4
    | external h1 => exact (hno _ _ h1).elim
    | unknown h1 h2 h3 =>
      rw [← hS.unknown_new] at h3
      exact .unknown (hop.trans h1) (by rw [hop]; exact h2) h3
  · exact .inr ⟨k, args, (z.calls_new hx).2 h1, by rw [hop]; exact h2, h3⟩

/-- What a node of the replacement does in the result, it does in the replacement. -/
theorem leaf_back (hS : Merges h r s i o f S Sr S') {R : Answers W} {x : Nat} (hx : Fresh r i o x)
    {ins outs : List (Val W)} (hl : Leaf g S' (f x) ins outs)
    (hR : ∀ k args outs, ¬ IsDefn g k → S'.external k args outs → R k args outs) :
    Leaf (bodiless r) (answering Sr R) x ins outs := by
  have hop := z.ops_new hx
  cases hl with
  | makeTuple h1 => exact .makeTuple ((z.bodiless_new hx).trans (hop.symm.trans h1))
  | unpackTuple h1 h2 => exact .unpackTuple ((z.bodiless_new hx).trans (hop.symm.trans h1)) h2
  | tag h1 => exact .tag ((z.bodiless_new hx).trans (hop.symm.trans h1))
  | @loadConstant t t' l h1 h2 h3 h4 h5 =>
    have h1 := hop.symm.trans h1
    have hp : ((r.ops x).ports .incoming)[l.dstPort]? = some (.const t) := by rw [h1, h4]; rfl
    obtain ⟨y, hy, e, hl⟩ := z.other_new hx hp h3 h2
    rw [e, hS.const_new y hy, value_of_leaf hS.leaf_new, ← answering_value Sr R]
    rw [e, z.ops_new hy] at h5
    exact .loadConstant (S := answering Sr R) (l := ⟨y, l.srcPort, x, l.dstPort⟩) ((z.bodiless_new hx).trans h1) hl rfl h4
      ((z.bodiless_new hy).trans h5)
  | loadFunction h1 => exact absurd (hop.symm.trans h1) (z.no_call hx _ _ _).2
  | ext h1 h2 h3 h4 =>
    rw [hS.ext_new x hx] at h4
    exact .ext ((z.bodiless_new hx).trans (hop.symm.trans h1)) h2 h3 h4
  | external h1 h2 h3 h4 =>
    exact .external (bodiless_calls.2 ((z.calls_new hx).1 h1)) (bodiless_defn _) (by rw [bodiless_outs, ← hop]; exact h3)
      (hR _ _ _ h2 h4)
  | unknown h1 h2 h3 =>
    rw [hS.unknown_new] at h3
    exact .unknown ((z.bodiless_new hx).trans (hop.symm.trans h1)) (by rw [bodiless_outs, ← hop]; exact h2) h3

/-! ## Inputs of nodes -/

theorem feeds_of {k : Nat} {part : List (Nat × Nat)} (hk : s.inputs[k]? = some part) : ∃ a ap, Feeds h s k a ap := by
  obtain ⟨n, np, rest, a, ap, rfl, _, hl, ha, _⟩ := z.srcAt_eq (List.mem_of_getElem? hk)
  exact ⟨a, ap, n, np, rest, hk, hl, ha⟩

/-- The source of an input is one. -/
theorem feeds_src {k a ap : Nat} (hf : Feeds h s k a ap) {part : List (Nat × Nat)} (hk : s.inputs[k]? = some part)
    {l : Link} (hl : l ∈ h.links) (hm : (l.dst, l.dstPort) ∈ part) : l.src = a ∧ l.srcPort = ap := by
  obtain ⟨n, np, rest, h1, h2, h3, _⟩ := z.feeds_link hf
  rw [hk] at h1; cases h1
  exact z.sep.shared _ (List.mem_of_getElem? hk) l hl _ h3 hm (by simp)

theorem feeds_live {k a ap : Nat} (hf : Feeds h s k a ap) : h.live a = true ∧ a ∉ s.nodes := by
  obtain ⟨_, _, _, _, _, h3, h4⟩ := z.feeds_link hf
  exact ⟨(z.live_link h3).1, h4⟩

/-- Values from the input of the replacement. -/
theorem in_part {k x xp : Nat} (hl : ⟨i, k, x, xp⟩ ∈ r.links) : ∃ part, s.inputs[k]? = some part :=
  ⟨_, List.getElem?_eq_getElem (z.i_value hl)⟩

/-- A node at the top of the replacement is given the same. -/
theorem ready_new {σ' τ : Wires W} {insV : List (Val W)} (h1 : ∀ x, Fresh r i o x → σ' (f x) = τ x)
    (h2 : τ i = outWires insV) (h3 : ∀ k a ap, Feeds h s k a ap → σ' a ap = insV[k]?) {x : Nat} (hx : Fresh r i o x)
    {ins : List (Val W)} : Ready r τ x ins ↔ Ready g σ' (f x) ins := by
  unfold Ready
  rw [z.ops_new hx]
  refine and_congr_right fun hlen => ⟨fun hr k v hk => ?_, fun hr k v hk => ?_⟩
  · obtain ⟨l, m1, m2, m3, m4⟩ := hr k v hk
    by_cases hi : l.src = i
    · have hl : (⟨i, l.srcPort, x, k⟩ : Link) ∈ r.links := by rw [← hi, ← m2, ← m3]; exact m1
      obtain ⟨part, hp⟩ := z.in_part hl
      obtain ⟨a, ap, hf⟩ := z.feeds_of hp
      refine ⟨⟨a, ap, f x, k⟩, (z.replaced.links _).2 (.inr (.incoming hf hl hx.2.2)), rfl, rfl, ?_⟩
      rw [h3 _ _ _ hf, ← m4, hi, h2]; rfl
    · have hs := z.fresh_src m1 (by rw [m2]; exact hx) hi
      have := z.link_new m1 hs (by rw [m2]; exact hx)
      rw [m2, m3] at this
      exact ⟨_, this, rfl, rfl, by rw [h1 _ hs]; exact m4⟩
  · obtain ⟨l, m1, m2, m3, m4⟩ := hr k v hk
    rcases (z.replaced.links l).1 m1 with ⟨q1, _, _⟩ | hn
    · exact absurd m2 (z.old (z.live_link q1).2 hx)
    · cases hn with
      | inner q1 q2 q3 =>
        cases z.replaced.injective _ _ q3 hx m2
        exact ⟨_, q1, rfl, m3, by rw [← h1 _ q2]; exact m4⟩
      | incoming q1 q2 q3 =>
        cases z.replaced.injective _ _ (z.wired.start _ _ _ q2 q3) hx m2
        refine ⟨_, q2, rfl, m3, ?_⟩
        simp only [] at m4
        rw [h3 _ _ _ q1] at m4
        rw [h2]; exact m4
      | outgoing _ _ hu =>
        obtain ⟨_, _, _, _, q3, _⟩ := z.uses_link hu
        exact absurd m2 (z.old (z.live_link q3).2 hx)
      | through _ _ hu =>
        obtain ⟨_, _, _, _, q3, _⟩ := z.uses_link hu
        exact absurd m2 (z.old (z.live_link q3).2 hx)

/-- A node further inside is given the same. -/
theorem ready_inner {σ' τ : Wires W} (h1 : ∀ x, Fresh r i o x → σ' (f x) = τ x) {x : Nat} (hx : Fresh r i o x)
    (hp : r.hier.parent x ≠ some r.entrypoint) {ins : List (Val W)} : Ready r τ x ins ↔ Ready g σ' (f x) ins := by
  unfold Ready
  rw [z.ops_new hx]
  refine and_congr_right fun hlen => ⟨fun hr k v hk => ?_, fun hr k v hk => ?_⟩
  · obtain ⟨l, m1, m2, m3, m4⟩ := hr k v hk
    by_cases hi : l.src = i
    · have hl : (⟨i, l.srcPort, x, k⟩ : Link) ∈ r.links := by rw [← hi, ← m2, ← m3]; exact m1
      exact absurd (z.from_input hl) hp
    · have hs := z.fresh_src m1 (by rw [m2]; exact hx) hi
      have := z.link_new m1 hs (by rw [m2]; exact hx)
      rw [m2, m3] at this
      exact ⟨_, this, rfl, rfl, by rw [h1 _ hs]; exact m4⟩
  · obtain ⟨l, m1, m2, m3, m4⟩ := hr k v hk
    rcases (z.replaced.links l).1 m1 with ⟨q1, _, _⟩ | hn
    · exact absurd m2 (z.old (z.live_link q1).2 hx)
    · cases hn with
      | inner q1 q2 q3 =>
        cases z.replaced.injective _ _ q3 hx m2
        exact ⟨_, q1, rfl, m3, by rw [← h1 _ q2]; exact m4⟩
      | incoming q1 q2 q3 =>
        cases z.replaced.injective _ _ (z.wired.start _ _ _ q2 q3) hx m2
        exact absurd (z.from_input q2) hp
      | outgoing _ _ hu =>
        obtain ⟨_, _, _, _, q3, _⟩ := z.uses_link hu
        exact absurd m2 (z.old (z.live_link q3).2 hx)
      | through _ _ hu =>
        obtain ⟨_, _, _, _, q3, _⟩ := z.uses_link hu
        exact absurd m2 (z.old (z.live_link q3).2 hx)

/-- The port of a value that a node is given. -/
theorem in_port {n : Nat} (hn : h.live n = true) {ins : List (Val W)} (hlen : ins.length = numIns (h.ops n)) {k : Nat}
    {v : Val W} (hk : ins[k]? = some v) : ∃ t, ((h.ops n).ports .incoming)[k]? = some (.value t) :=
  in_kind (z.valid.tags n hn) (by rw [← hlen]; exact (List.getElem?_eq_some_iff.1 hk).1)

/-- A node of another region is given the same. -/
theorem ready_host {σ σ' : Wires W} (h1 : ∀ n, h.live n = true → n ∉ s.nodes → σ' n = σ n) {n : Nat}
    (hn : h.live n = true) (hk : n ∉ s.nodes) (hp : h.hier.parent n ≠ some p) {ins : List (Val W)} :
    Ready h σ n ins ↔ Ready g σ' n ins := by
  unfold Ready
  rw [z.ops_old hn hk]
  refine and_congr_right fun hlen => ⟨fun hr k v hkv => ?_, fun hr k v hkv => ?_⟩
  · obtain ⟨l, m1, m2, m3, m4⟩ := hr k v hkv
    obtain ⟨t, ht⟩ := z.in_port hn hlen hkv
    have hs : l.src ∉ s.nodes := by
      intro hs
      obtain ⟨kind, k1, k2⟩ := link_kinds z.valid m1
      rw [m2, m3, ht] at k2; cases k2
      have := (z.sep.leaves l m1 hs (by rw [m2]; exact hk) (by rw [k1]; simp)).2
      rw [m2] at this
      exact hp this
    exact ⟨l, z.link_old m1 hs (by rw [m2]; exact hk), m2, m3, by rw [h1 _ (z.live_link m1).1 hs]; exact m4⟩
  · obtain ⟨l, m1, m2, m3, m4⟩ := hr k v hkv
    rcases (z.replaced.links l).1 m1 with ⟨q1, q2, _⟩ | hnl
    · exact ⟨l, q1, m2, m3, by rw [← h1 _ (z.live_link q1).1 q2]; exact m4⟩
    · cases hnl with
      | inner _ _ q3 => exact absurd m2.symm (z.old hn q3)
      | incoming _ q2 q3 => exact absurd m2.symm (z.old hn (z.wired.start _ _ _ q2 q3))
      | outgoing _ _ hu =>
        have := z.uses_parent hu
        simp only [] at m2
        rw [m2] at this
        exact absurd this hp
      | through _ _ hu =>
        have := z.uses_parent hu
        simp only [] at m2
        rw [m2] at this
        exact absurd this hp

omit z in
/-- The values on the wires of the region: with the subgraph, `σ`; with the replacement, `σ'`; inside of the
replacement, `τ`. -/
structure Bridge (h r : Hugr Ops.Op Meta) (s : Subgraph) (i o : Nat) (f : Nat → Nat) (σ σ' τ : Wires W)
    (insV outsV : List (Val W)) : Prop where
  host : ∀ n, h.live n = true → n ∉ s.nodes → σ' n = σ n
  fresh : ∀ x, Fresh r i o x → σ' (f x) = τ x
  input : τ i = outWires insV
  feeds : ∀ k a ap, Feeds h s k a ap → σ a ap = insV[k]?
  outputs : ∀ (j n np : Nat), s.outputs[j]? = some (n, np) → σ n np = outsV[j]?
  output : Ready r τ o outsV

/-- The value on a link to the output of the replacement. -/
theorem at_output {τ : Wires W} {outsV : List (Val W)} (hr : Ready r τ o outsV) {x xp j : Nat}
    (hl : ⟨x, xp, o, j⟩ ∈ r.links) : τ x xp = outsV[j]? := by
  obtain ⟨sg, _, _, ho, _, hlen, _⟩ := z.sig
  obtain ⟨_, _, _, _, _, _, _, _, _, _, hlo⟩ := z.children
  have hj := z.o_value hl
  refine ready_value z.validR hlo hr hl rfl (t := sg.output[j]'(by omega)) ?_ ?_
  · rw [ho]; exact values_at (List.getElem?_eq_getElem _)
  · simp only [ho, numIns, Op.ports]
    simp [List.filter_map, Function.comp_def, Kind.isValue, List.filter_cons]
    omega

/-- A node of the region is given the same. -/
theorem ready_old {σ σ' τ : Wires W} {insV outsV : List (Val W)} (B : Bridge h r s i o f σ σ' τ insV outsV) {n : Nat}
    (hn : h.live n = true) (hk : n ∉ s.nodes) {ins : List (Val W)} : Ready h σ n ins ↔ Ready g σ' n ins := by
  unfold Ready
  rw [z.ops_old hn hk]
  refine and_congr_right fun hlen => ⟨fun hr k v hkv => ?_, fun hr k v hkv => ?_⟩
  · obtain ⟨l, m1, m2, m3, m4⟩ := hr k v hkv
    obtain ⟨t, ht⟩ := z.in_port hn hlen hkv
    by_cases hs : l.src ∈ s.nodes
    · obtain ⟨kind, k1, k2⟩ := link_kinds z.valid m1
      rw [m2, m3, ht] at k2; cases k2
      have hm := (z.sep.leaves l m1 hs (by rw [m2]; exact hk) (by rw [k1]; simp)).1
      obtain ⟨j, hj, _⟩ := z.out_index hm
      have hu : Uses h s j n k := ⟨l.src, l.srcPort, hj, by rw [← m2, ← m3]; exact m1, hk⟩
      rw [B.outputs j _ _ hj] at m4
      obtain ⟨l', q1, q2, q3, q4⟩ := B.output.2 j v m4
      by_cases hi : l'.src = i
      · have hl : (⟨i, l'.srcPort, o, j⟩ : Link) ∈ r.links := by rw [← hi, ← q2, ← q3]; exact q1
        obtain ⟨part, hp⟩ := z.in_part hl
        obtain ⟨a, ap, hf⟩ := z.feeds_of hp
        refine ⟨⟨a, ap, n, k⟩, (z.replaced.links _).2 (.inr (.through hl hf hu)), rfl, rfl, ?_⟩
        obtain ⟨c1, c2⟩ := z.feeds_live hf
        rw [B.host _ c1 c2, B.feeds _ _ _ hf, ← q4, hi, B.input]; rfl
      · have hl : (⟨l'.src, l'.srcPort, o, j⟩ : Link) ∈ r.links := by rw [← q2, ← q3]; exact q1
        refine ⟨⟨f l'.src, l'.srcPort, n, k⟩, (z.replaced.links _).2 (.inr (.outgoing hl hi hu)), rfl, rfl, ?_⟩
        rw [B.fresh _ (z.wired.stop _ _ _ hl hi)]; exact q4
    · exact ⟨l, z.link_old m1 hs (by rw [m2]; exact hk), m2, m3, by rw [B.host _ (z.live_link m1).1 hs]; exact m4⟩
  · obtain ⟨l, m1, m2, m3, m4⟩ := hr k v hkv
    rcases (z.replaced.links l).1 m1 with ⟨q1, q2, _⟩ | hnl
    · exact ⟨l, q1, m2, m3, by rw [← B.host _ (z.live_link q1).1 q2]; exact m4⟩
    · cases hnl with
      | inner _ _ q3 => exact absurd m2.symm (z.old hn q3)
      | incoming _ q2 q3 => exact absurd m2.symm (z.old hn (z.wired.start _ _ _ q2 q3))
      | outgoing q1 q2 hu =>
        obtain ⟨n', np', u1, _, u3, _⟩ := z.uses_link hu
        refine ⟨_, u3, m2, m3, ?_⟩
        simp only [] at m4
        rw [B.fresh _ (z.wired.stop _ _ _ q1 q2), z.at_output B.output q1] at m4
        simp only []
        rw [B.outputs _ _ _ u1]; exact m4
      | through q1 q2 hu =>
        obtain ⟨n', np', u1, _, u3, _⟩ := z.uses_link hu
        refine ⟨_, u3, m2, m3, ?_⟩
        obtain ⟨c1, c2⟩ := z.feeds_live q2
        simp only [] at m4
        rw [B.host _ c1 c2, B.feeds _ _ _ q2] at m4
        simp only []
        have := z.at_output B.output q1
        rw [B.input] at this
        rw [B.outputs _ _ _ u1, ← this]; exact m4

end SwapAt
end Verif.Patch
