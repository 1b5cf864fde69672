import Verif.Dataflow.SimSpec
import Verif.Dataflow.AnalysisSound

/-!
# Proving that a transformation preserves executions
-/
namespace Verif.Dataflow

open Verif.Graph Verif.Ops Verif.Validate

variable {Meta W E : Type}

/-! ## Functions in values -/

theorem funcsInAll_iff {P : Nat → Prop} (vs : List (Val W)) :
    FuncsInAll P vs ↔ ∀ v ∈ vs, FuncsIn P v := by
  induction vs with
  | nil => simp [FuncsInAll]
  | cons v vs ih => simp [FuncsInAll, ih]

theorem funcsIn_sum {P : Nat → Prop} (tag : Nat) (vs : List (Val W)) :
    FuncsIn P (.sum tag vs) ↔ ∀ v ∈ vs, FuncsIn P v := by
  rw [← funcsInAll_iff]; rfl

mutual
theorem funcsIn_true : ∀ v : Val W, FuncsIn (fun _ => True) v
  | .val _ => by simp [FuncsIn]
  | .func _ _ => by simp [FuncsIn]
  | .sum _ vs => by simp only [FuncsIn]; exact funcsInAll_true vs
theorem funcsInAll_true : ∀ vs : List (Val W), FuncsInAll (fun _ => True) vs
  | [] => by simp [FuncsInAll]
  | v :: vs => by simp only [FuncsInAll]; exact ⟨funcsIn_true v, funcsInAll_true vs⟩
end

mutual
theorem value_funcs {P : Nat → Prop} (S : Sem W E) : ∀ c : CVal E, FuncsIn P (S.value c)
  | .leaf e => by simp [Sem.value, FuncsIn]
  | .sum tag vals => by
    simp only [Sem.value, FuncsIn]
    exact values_funcs S vals
theorem values_funcs {P : Nat → Prop} (S : Sem W E) : ∀ cs : List (CVal E), FuncsInAll P (S.values cs)
  | [] => by simp [Sem.values, FuncsInAll]
  | c :: cs => by
    simp only [Sem.values, FuncsInAll]
    exact ⟨value_funcs S c, values_funcs S cs⟩
end

mutual
theorem value_const (S : Sem W E) (k : Nat → CVal E) :
    ∀ c : CVal E, Sem.value { S with const := k } c = S.value c
  | .leaf e => by simp [Sem.value]
  | .sum tag vals => by simp [Sem.value, values_const S k vals]
theorem values_const (S : Sem W E) (k : Nat → CVal E) :
    ∀ cs : List (CVal E), Sem.values { S with const := k } cs = S.values cs
  | [] => by simp [Sem.values]
  | c :: cs => by simp [Sem.values, value_const S k c, values_const S k cs]
end

/-! ## The conditions -/

/-- A wire into the port `port` of `node` was replaced by one from the new node `load`, which loads
the value `val` of the new node `cst`. -/
structure Replaced (E : Type) where
  node : Nat
  port : Nat
  val : CVal E
  cst : Nat
  load : Nat

/-- The nodes in `keep` are the same in `h'`, but for some wires that were replaced. The functions in
values on the wires of those nodes satisfy `Fn`. -/
structure Sim (keep Fn : Nat → Prop) (B : List (Replaced E)) (k : Nat → CVal E)
    (h : Hugr Ops.Op Meta) (S : Sem W E) (h' : Hugr Ops.Op Meta) : Prop where
  ops : ∀ n, keep n → h'.ops n = h.ops n
  parent : ∀ n p, keep n → h.hier.parent n = some p → keep p ∧ h'.hier.parent n = some p
  io : ∀ p i o, keep p → (body (h.ops p)).isSome = true → HasIO h p i o →
    keep i ∧ keep o ∧ HasIO h' p i o
  ioParent : ∀ p i o, HasIO h p i o → h.hier.parent i = some p ∧ h.hier.parent o = some p
  cond : ∀ n rows other outs (tag : Nat) (c : Nat), keep n → h.ops n = .conditional rows other outs →
    (h.children n)[tag]? = some c → keep c ∧ (h'.children n)[tag]? = some c
  condParent : ∀ n rows other outs (tag : Nat) (c : Nat), h.ops n = .conditional rows other outs →
    (h.children n)[tag]? = some c → h.hier.parent c = some n
  case : ∀ p c sig, h.ops p = .case sig → h.hier.parent p = some c → keep c → keep p
  cfg : ∀ n sig entry rest, keep n → h.ops n = .cfg sig → h.children n = entry :: rest →
    keep entry ∧ ∃ rest', h'.children n = entry :: rest'
  cfgParent : ∀ n sig entry rest, h.ops n = .cfg sig → h.children n = entry :: rest →
    h.hier.parent entry = some n
  block : ∀ p g x y z, h.ops p = .dataflowBlock x y z → h.hier.parent p = some g → keep g → keep p
  links : ∀ l ∈ h.links, keep l.dst → (keep l.src ∧ l ∈ h'.links) ∨
    ∃ b ∈ B, b.node = l.dst ∧ b.port = l.dstPort
  succ : ∀ l ∈ h.links, ∀ x y z, h.ops l.src = .dataflowBlock x y z →
    (keep l.src → keep l.dst ∧ l ∈ h'.links) ∧ (keep l.dst → keep l.src)
  fns : ∀ f i o, Fn f → IsDefn h f → HasIO h f i o → keep f
  noFns : ∀ f, Fn f → ¬ IsDefn h f → ¬ IsDefn h' f
  loads : ∀ l ∈ h.links, ∀ sig targs inst, h.ops l.dst = .loadFunction sig targs inst →
    keep l.src → Fn l.src
  closed : S.Closed Fn
  consts : ∀ n, keep n → k n = S.const n
  values : ∀ b ∈ B, b.port < numIns (h.ops b.node)
  new : ∀ b ∈ B, ¬ keep b.load
  loadOps : ∀ b ∈ B, (∃ t, h'.ops b.load = .loadConstant t) ∧ (∃ t, h'.ops b.cst = .const t) ∧
    k b.cst = b.val ∧ ⟨b.cst, 0, b.load, 0⟩ ∈ h'.links ∧ ⟨b.load, 0, b.node, b.port⟩ ∈ h'.links ∧
    h'.hier.parent b.load = h.hier.parent b.node
  nodup : (B.map Replaced.load).Nodup

/-- The relation between activations. -/
structure Rel (keep Fn : Nat → Prop) (B : List (Replaced E)) (S : Sem W E) (h' : Hugr Ops.Op Meta)
    (a a' : Activation W) : Prop where
  root : a'.root = a.root
  wires : ∀ n p v, keep n → a.wires n p = some v → a'.wires n p = some v
  funcs : ∀ n p v, keep n → a.wires n p = some v → FuncsIn Fn v
  entered : ∀ p, keep p → a.entered p → a'.entered p
  loaded : ∀ b ∈ B, ∀ p, h'.hier.parent b.load = some p → a'.entered p →
    a'.wires b.load 0 = some (S.value b.val)

section Proof
variable {keep Fn : Nat → Prop} {B : List (Replaced E)} {k : Nat → CVal E} {h h' : Hugr Ops.Op Meta}
  {S : Sem W E} {Root : Nat → List (Val W) → Prop}

/-- The new constants are loaded. -/
theorem settle (m : Sim keep Fn B k h S h') {r : Nat} {args : List (Val W)} {a' : Activation W}
    (ho : Occurs h' { S with const := k } Root r args a') :
    ∃ a'', Occurs h' { S with const := k } Root r args a'' ∧ a''.root = a'.root ∧
      a''.entered = a'.entered ∧ (∀ n, (∀ b ∈ B, n ≠ b.load) → a''.wires n = a'.wires n) ∧
      ∀ b ∈ B, ∀ p, h'.hier.parent b.load = some p → a'.entered p →
        a''.wires b.load 0 = some (S.value b.val) := by
  have key : ∀ B' : List (Replaced E), B' ⊆ B → (B'.map Replaced.load).Nodup →
      ∃ a'', Occurs h' { S with const := k } Root r args a'' ∧ a''.root = a'.root ∧
      a''.entered = a'.entered ∧ (∀ n, (∀ b ∈ B', n ≠ b.load) → a''.wires n = a'.wires n) ∧
      ∀ b ∈ B', ∀ p, h'.hier.parent b.load = some p → a'.entered p →
        a''.wires b.load 0 = some (S.value b.val) := by
    intro B'
    induction B' with
    | nil => intro _ _; exact ⟨a', ho, rfl, rfl, fun _ _ => rfl, by simp⟩
    | cons b B' ih =>
      intro hsub hnd
      simp only [List.map_cons, List.nodup_cons] at hnd
      obtain ⟨a1, h1, h2, h3, h4, h5⟩ := ih (fun x hx => hsub (by simp [hx])) hnd.2
      by_cases hp : ∃ p, h'.hier.parent b.load = some p ∧ a'.entered p
      · obtain ⟨⟨t, hop⟩, ⟨t', hcop⟩, hk, hl, _, _⟩ := m.loadOps b (hsub (by simp))
        refine ⟨a1.put b.load [S.value b.val], .step h1 (.leaf (ins := []) ?_ ?_ ?_), h2, h3, ?_, ?_⟩
        · obtain ⟨p, hp1, hp2⟩ := hp
          exact ⟨p, hp1, by rw [h3]; exact hp2⟩
        · refine ⟨?_, by simp⟩
          rw [hop]; rfl
        · have := Leaf.loadConstant (S := { S with const := k }) (h := h') (n := b.load) (l := ⟨b.cst, 0, b.load, 0⟩)
            hop hl rfl rfl hcop
          simpa [value_const, hk] using this
        · intro n hn
          funext p
          simp only [Activation.put, Wires.put]
          rw [if_neg (hn b (by simp)), h4 n fun b' hb' => hn b' (by simp [hb'])]
        · intro b' hb' p hp1 hp2
          simp only [Activation.put, Wires.put]
          rcases List.mem_cons.1 hb' with rfl | hb'
          · simp
          · rw [if_neg, h5 b' hb' p hp1 hp2]
            intro he
            exact hnd.1 (List.mem_map.2 ⟨b', hb', he⟩)
      · refine ⟨a1, h1, h2, h3, fun n hn => h4 n fun b' hb' => hn b' (by simp [hb']), ?_⟩
        intro b' hb' p hp1 hp2
        rcases List.mem_cons.1 hb' with rfl | hb'
        · exact absurd ⟨p, hp1, hp2⟩ hp
        · exact h5 b' hb' p hp1 hp2
  exact key B (List.Subset.refl _) m.nodup

/-- Like `Rel`, before the new constants are loaded. -/
structure Rel0 (keep Fn : Nat → Prop) (a a' : Activation W) : Prop where
  root : a'.root = a.root
  wires : ∀ n p v, keep n → a.wires n p = some v → a'.wires n p = some v
  funcs : ∀ n p v, keep n → a.wires n p = some v → FuncsIn Fn v
  entered : ∀ p, keep p → a.entered p → a'.entered p

theorem settled (m : Sim keep Fn B k h S h') {r : Nat} {args : List (Val W)} {a a' : Activation W}
    (ho : Occurs h' { S with const := k } Root r args a') (hr : Rel0 keep Fn a a') :
    ∃ a'', Occurs h' { S with const := k } Root r args a'' ∧ Rel keep Fn B S h' a a'' := by
  obtain ⟨a'', h1, h2, h3, h4, h5⟩ := settle m ho
  refine ⟨a'', h1, ⟨h2.trans hr.root, fun n p v hn hv => ?_, hr.funcs, fun p hp he => ?_,
    fun b hb p hp he => h5 b hb p hp (by rw [← h3]; exact he)⟩⟩
  · rw [h4 n fun b hb he => m.new b hb (he ▸ hn)]
    exact hr.wires n p v hn hv
  · rw [h3]; exact hr.entered p hp he

theorem Rel.rel0 {a a' : Activation W} (r : Rel keep Fn B S h' a a') : Rel0 keep Fn a a' :=
  ⟨r.root, r.wires, r.funcs, r.entered⟩

theorem Rel0.put {a a' : Activation W} (r : Rel0 keep Fn a a') (n : Nat) {outs : List (Val W)}
    (hf : keep n → FuncsInAll Fn outs) : Rel0 keep Fn (a.put n outs) (a'.put n outs) := by
  refine ⟨r.root, fun m p v hm hv => ?_, fun m p v hm hv => ?_, r.entered⟩
  · simp only [Activation.put, Wires.put] at hv ⊢
    by_cases he : m = n
    · rw [if_pos he] at hv ⊢; exact hv
    · rw [if_neg he] at hv ⊢; exact r.wires m p v hm hv
  · simp only [Activation.put, Wires.put] at hv
    split at hv
    · rename_i he
      exact (funcsInAll_iff _).1 (hf (he ▸ hm)) v (List.mem_of_getElem? hv)
    · exact r.funcs m p v hm hv

/-- A node that is not kept. -/
theorem Rel0.skip {a a' : Activation W} (r : Rel0 keep Fn a a') {n : Nat} (hn : ¬ keep n)
    (outs : List (Val W)) : Rel0 keep Fn (a.put n outs) a' := by
  have hne : ∀ m p, keep m → (a.put n outs).wires m p = a.wires m p := by
    intro m p hm
    simp only [Activation.put, Wires.put]
    rw [if_neg (fun he : m = n => hn (he ▸ hm))]
  refine ⟨r.root, fun m p v hm hv => ?_, fun m p v hm hv => ?_, r.entered⟩
  · rw [hne m p hm] at hv; exact r.wires m p v hm hv
  · rw [hne m p hm] at hv; exact r.funcs m p v hm hv

theorem Rel0.enter {a a' : Activation W} (r : Rel0 keep Fn a a') (p i : Nat) {vals : List (Val W)}
    (hf : keep i → FuncsInAll Fn vals) : Rel0 keep Fn (a.enter p i vals) (a'.enter p i vals) := by
  have := r.put i hf
  refine ⟨r.root, this.wires, this.funcs, fun q hq he => ?_⟩
  rcases he with rfl | he
  · exact .inl rfl
  · exact .inr (r.entered q hq he)

theorem Rel0.skipEnter {a a' : Activation W} (r : Rel0 keep Fn a a') {p i : Nat} (hp : ¬ keep p)
    (hi : ¬ keep i) (vals : List (Val W)) : Rel0 keep Fn (a.enter p i vals) a' := by
  have := r.skip hi vals
  refine ⟨r.root, this.wires, this.funcs, fun q hq he => ?_⟩
  rcases he with rfl | he
  · exact absurd hq hp
  · exact r.entered q hq he

/-- The wires into a node of a region that was entered. -/
theorem ready_sim (m : Sim keep Fn B k h S h') {a a' : Activation W} (r : Rel keep Fn B S h' a a')
    (hconst : ∀ b ∈ B, ∀ l ∈ h.links, b.node = l.dst → b.port = l.dstPort → ∀ v,
      a.wires l.src l.srcPort = some v → v = S.value b.val)
    {n p : Nat} (hn : keep n) (hp : h.hier.parent n = some p) (he : a.entered p)
    {ins : List (Val W)} (hr : Ready h a.wires n ins) :
    Ready h' a'.wires n ins ∧ FuncsInAll Fn ins := by
  have hkey : ∀ i v, ins[i]? = some v →
      (∃ l ∈ h'.links, l.dst = n ∧ l.dstPort = i ∧ a'.wires l.src l.srcPort = some v) ∧ FuncsIn Fn v := by
    intro i v hv
    obtain ⟨l, hl, hdst, hport, hw⟩ := hr.2 i v hv
    rcases m.links l hl (hdst ▸ hn) with ⟨hk, hl'⟩ | ⟨b, hb, hb1, hb2⟩
    · exact ⟨⟨l, hl', hdst, hport, r.wires _ _ _ hk hw⟩, r.funcs _ _ _ hk hw⟩
    · have hval := hconst b hb l hl hb1 hb2 v hw
      obtain ⟨_, _, _, _, hl2, hpar⟩ := m.loadOps b hb
      have hkp := m.parent n p hn hp
      rw [hb1, hdst, hp] at hpar
      refine ⟨⟨_, hl2, hb1.trans hdst, hb2.trans hport, ?_⟩, ?_⟩
      · rw [hval]; exact r.loaded b hb p hpar (r.entered p hkp.1 he)
      · rw [hval]; exact value_funcs S _
  refine ⟨⟨?_, fun i v hv => (hkey i v hv).1⟩, ?_⟩
  · rw [m.ops n hn]; exact hr.1
  · rw [funcsInAll_iff]
    intro v hv
    obtain ⟨i, hi⟩ := List.mem_iff_getElem?.1 hv
    exact (hkey i v hi).2

theorem calls_sim (m : Sim keep Fn B k h S h') {n f : Nat} (hn : keep n) {ins args : List (Val W)}
    (hc : Calls h n ins f args) (hf : FuncsInAll Fn ins) :
    Calls h' n ins f args ∧ (keep f ∨ Fn f) ∧ FuncsInAll Fn args := by
  cases hc with
  | @direct sig targs inst _ l hop hl hdst hport =>
    rcases m.links l hl (hdst ▸ hn) with ⟨hk, hl'⟩ | ⟨b, hb, hb1, hb2⟩
    · exact ⟨.direct (by rw [m.ops n hn]; exact hop) hl' hdst hport, .inl hk, hf⟩
    · have := m.values b hb
      rw [hb1, hb2, hdst, hport, hop] at this
      simp [numIns, Op.ports, List.filter_map, Function.comp_def, Kind.isValue, List.filter_cons] at this
  | indirect hop =>
    simp only [FuncsInAll, FuncsIn] at hf
    exact ⟨.indirect (by rw [m.ops n hn]; exact hop), .inr hf.1, hf.2⟩

theorem isDefn_sim (m : Sim keep Fn B k h S h') {f : Nat} (hf : keep f ∨ Fn f) (hd : ¬ IsDefn h f) :
    ¬ IsDefn h' f := by
  rcases hf with hf | hf
  · intro ⟨a, b, hab⟩
    rw [m.ops f hf] at hab
    exact hd ⟨a, b, hab⟩
  · exact m.noFns f hf hd

theorem leaf_sim (m : Sim keep Fn B k h S h') {n : Nat} (hn : keep n) {ins outs : List (Val W)}
    (hl : Leaf h S n ins outs) (hf : FuncsInAll Fn ins) :
    Leaf h' { S with const := k } n ins outs ∧ FuncsInAll Fn outs := by
  have hops := m.ops n hn
  cases hl with
  | makeTuple hop => exact ⟨.makeTuple (by rw [hops]; exact hop), by simpa [FuncsInAll, FuncsIn] using hf⟩
  | unpackTuple hop hlen =>
    exact ⟨.unpackTuple (by rw [hops]; exact hop) hlen, by simpa [FuncsInAll, FuncsIn] using hf⟩
  | tag hop => exact ⟨.tag (by rw [hops]; exact hop), by simpa [FuncsInAll, FuncsIn] using hf⟩
  | @loadConstant t t' l hop hl hdst hport hc =>
    rcases m.links l hl (hdst ▸ hn) with ⟨hk, hl'⟩ | ⟨b, hb, hb1, hb2⟩
    · have := Leaf.loadConstant (S := { S with const := k }) (n := n) (by rw [hops]; exact hop) hl' hdst hport
        (by rw [m.ops _ hk]; exact hc)
      simp only [value_const, m.consts _ hk] at this
      exact ⟨this, by simp [FuncsInAll, value_funcs]⟩
    · have := m.values b hb
      rw [hb1, hdst, hop] at this
      simp [numIns, Op.ports, List.filter_cons, Kind.isValue] at this
  | @loadFunction sig targs inst l hop hl hdst hport =>
    rcases m.links l hl (hdst ▸ hn) with ⟨hk, hl'⟩ | ⟨b, hb, hb1, hb2⟩
    · exact ⟨.loadFunction (by rw [hops]; exact hop) hl' hdst hport, by
        simpa [FuncsInAll, FuncsIn] using m.loads l hl sig targs inst (hdst ▸ hop) hk⟩
    · have := m.values b hb
      rw [hb1, hdst, hop] at this
      simp [numIns, Op.ports, List.filter_cons, Kind.isValue] at this
  | ext hop hno hlen hext =>
    exact ⟨.ext (by rw [hops]; exact hop) hno hlen hext, m.closed.ext _ _ _ hext hf⟩
  | external hc hd hlen hext =>
    obtain ⟨h1, h2, h3⟩ := calls_sim m hn hc hf
    exact ⟨.external h1 (isDefn_sim m h2 hd) (by rw [hops]; exact hlen) hext,
      m.closed.external _ _ _ hext h3⟩
  | unknown hop hlen hext =>
    simp only [FuncsInAll, FuncsIn] at hf
    exact ⟨.unknown (by rw [hops]; exact hop) (by rw [hops]; exact hlen) hext,
      m.closed.unknown _ _ _ hext hf.2⟩

/-- What is entered is kept if and only if the node is. -/
theorem begins_sim (m : Sim keep Fn B k h S h') {n p : Nat} {ins vals : List (Val W)}
    (hb : Begins h n ins p vals) :
    (keep p → keep n) ∧
    (keep n → FuncsInAll Fn ins → keep p ∧ Begins h' n ins p vals ∧ FuncsInAll Fn vals) := by
  cases hb with
  | dfg hop => exact ⟨id, fun hn hf => ⟨hn, .dfg (by rw [m.ops n hn]; exact hop), hf⟩⟩
  | loop hop => exact ⟨id, fun hn hf => ⟨hn, .loop (by rw [m.ops n hn]; exact hop), hf⟩⟩
  | @cond rows other outs row tag c elems rest hop hc hrow hlen =>
    refine ⟨fun hp => (m.parent p n hp (m.condParent n _ _ _ tag p hop hc)).1, fun hn hf => ?_⟩
    obtain ⟨h1, h2⟩ := m.cond n _ _ _ tag p hn hop hc
    refine ⟨h1, .cond (by rw [m.ops n hn]; exact hop) h2 hrow hlen, ?_⟩
    rw [funcsInAll_iff] at hf ⊢
    intro v hv
    rcases List.mem_append.1 hv with hv | hv
    · exact (funcsIn_sum _ _).1 (hf (.sum tag elems) (by simp)) v hv
    · exact hf v (by simp [hv])
  | cfg hop hc =>
    refine ⟨fun hp => (m.parent p n hp (m.cfgParent n _ p _ hop hc)).1, fun hn hf => ?_⟩
    obtain ⟨h1, rest', h2⟩ := m.cfg n _ p _ hn hop hc
    exact ⟨h1, .cfg (by rw [m.ops n hn]; exact hop) h2, hf⟩

theorem funcs_sum_cons {tag : Nat} {elems others : List (Val W)}
    (hf : FuncsInAll Fn (.sum tag elems :: others)) : FuncsInAll Fn (elems ++ others) := by
  rw [funcsInAll_iff] at hf ⊢
  intro v hv
  rcases List.mem_append.1 hv with hv | hv
  · exact (funcsIn_sum _ _).1 (hf (.sum tag elems) (by simp)) v hv
  · exact hf v (by simp [hv])

theorem step_sim (m : Sim keep Fn B k h S h') (hbody : ∀ n (ins : List (Val W)) p vals i o,
      Begins h n ins p vals → HasIO h p i o → (body (h.ops p)).isSome = true)
    {a b a' : Activation W} (r : Rel keep Fn B S h' a a')
    (hconst : ∀ b ∈ B, ∀ l ∈ h.links, b.node = l.dst → b.port = l.dstPort → ∀ v,
      a.wires l.src l.srcPort = some v → v = S.value b.val)
    (hs : Step h S a b) : Rel0 keep Fn b a' ∨
      ∃ b', Step h' { S with const := k } a' b' ∧ Rel0 keep Fn b b' := by
  have hrd : ∀ {p i o : Nat} {outs : List (Val W)}, a.entered p → keep p →
      (body (h.ops p)).isSome = true → HasIO h p i o → Ready h a.wires o outs →
      keep i ∧ a'.entered p ∧ HasIO h' p i o ∧ Ready h' a'.wires o outs ∧ FuncsInAll Fn outs := by
    intro p i o outs he hp hbo hio hready
    obtain ⟨h1, h2, h3⟩ := m.io p i o hp hbo hio
    obtain ⟨h4, h5⟩ := ready_sim m r hconst h2 (m.ioParent p i o hio).2 he hready
    exact ⟨h1, r.entered p hp he, h3, h4, h5⟩
  cases hs with
  | @leaf n ins outs hat hready hleaf =>
    by_cases hn : keep n
    · obtain ⟨p, hp, he⟩ := hat
      obtain ⟨h1, h2⟩ := ready_sim m r hconst hn hp he hready
      obtain ⟨h3, h4⟩ := leaf_sim m hn hleaf h2
      obtain ⟨h5, h6⟩ := m.parent n p hn hp
      exact .inr ⟨_, .leaf ⟨p, h6, r.entered p h5 he⟩ h1 h3, r.rel0.put n fun _ => h4⟩
    · exact .inl (r.rel0.skip hn outs)
  | @enter n p i o ins vals hat hready hbeg hio =>
    obtain ⟨b1, b2⟩ := begins_sim m hbeg
    by_cases hn : keep n
    · obtain ⟨q, hq, he⟩ := hat
      obtain ⟨h1, h2⟩ := ready_sim m r hconst hn hq he hready
      obtain ⟨h5, h6⟩ := m.parent n q hn hq
      obtain ⟨b3, b4, b5⟩ := b2 hn h2
      obtain ⟨_, _, h9⟩ := m.io p i o b3 (hbody n ins p vals i o hbeg hio) hio
      exact .inr ⟨_, .enter ⟨q, h6, r.entered q h5 he⟩ h1 b4 h9, r.rel0.enter p i fun _ => b5⟩
    · have hp : ¬ keep p := fun hp => hn (b1 hp)
      exact .inl (r.rel0.skipEnter hp (fun hi => hp (m.parent i p hi (m.ioParent p i o hio).1).1) _)
  | @leaveDfg p i o sig outs he hop hio hready =>
    by_cases hp : keep p
    · obtain ⟨_, h2, h3, h4, h5⟩ := hrd he hp (by rw [hop]; rfl) hio hready
      exact .inr ⟨_, .leaveDfg h2 (by rw [m.ops p hp]; exact hop) h3 h4, r.rel0.put p fun _ => h5⟩
    · exact .inl (r.rel0.skip hp outs)
  | @leaveCase p c i o sig outs he hroot hop hpar hio hready =>
    by_cases hc : keep c
    · have hp := m.case p c sig hop hpar hc
      obtain ⟨_, h2, h3, h4, h5⟩ := hrd he hp (by rw [hop]; rfl) hio hready
      exact .inr ⟨_, .leaveCase h2 (by rw [r.root]; exact hroot) (by rw [m.ops p hp]; exact hop)
        (m.parent p c hp hpar).2 h3 h4, r.rel0.put c fun _ => h5⟩
    · exact .inl (r.rel0.skip hc outs)
  | @again p i o ji jo rest elems others he hop hio hready hlen =>
    by_cases hp : keep p
    · obtain ⟨_, h2, h3, h4, h5⟩ := hrd he hp (by rw [hop]; rfl) hio hready
      exact .inr ⟨_, .again h2 (by rw [m.ops p hp]; exact hop) h3 h4 hlen,
        r.rel0.put i fun _ => funcs_sum_cons h5⟩
    · exact .inl (r.rel0.skip (fun hi => hp (m.parent i p hi (m.ioParent p i o hio).1).1) _)
  | @leaveLoop p i o ji jo rest elems others he hop hio hready hlen =>
    by_cases hp : keep p
    · obtain ⟨_, h2, h3, h4, h5⟩ := hrd he hp (by rw [hop]; rfl) hio hready
      exact .inr ⟨_, .leaveLoop h2 (by rw [m.ops p hp]; exact hop) h3 h4 hlen,
        r.rel0.put p fun _ => funcs_sum_cons h5⟩
    · exact .inl (r.rel0.skip hp _)
  | @jump p i o q i' o' tag ins other row rows elems others l he hroot hop hio hready hrow hlen hl
      hsrc hport hdst hq hio' =>
    obtain ⟨s1, s2⟩ := m.succ l hl _ _ _ (hsrc ▸ hop)
    rw [hsrc, hdst] at s1 s2
    by_cases hp : keep p
    · obtain ⟨_, h2, h3, h4, h5⟩ := hrd he hp (by rw [hop]; rfl) hio hready
      obtain ⟨s3, s4⟩ := s1 hp
      obtain ⟨x, y, z, hq⟩ := hq
      obtain ⟨h7, h8, h9⟩ := m.io q i' o' s3 (by rw [hq]; rfl) hio'
      exact .inr ⟨_, .jump h2 (by rw [r.root]; exact hroot) (by rw [m.ops p hp]; exact hop) h3 h4
        hrow hlen s4 hsrc hport hdst ⟨x, y, z, by rw [m.ops q s3]; exact hq⟩ h9,
        r.rel0.enter q i' fun _ => funcs_sum_cons h5⟩
    · have hq' : ¬ keep q := fun hq' => hp (s2 hq')
      exact .inl (r.rel0.skipEnter hq'
        (fun hi => hq' (m.parent i' q hi (m.ioParent q i' o' hio').1).1) _)
  | @leaveCfg p i o g tag ins other row outs rows elems others l he hroot hop hio hready hrow hlen hl
      hsrc hport hdst hpar =>
    by_cases hg : keep g
    · have hp := m.block p g _ _ _ hop hpar hg
      obtain ⟨_, h2, h3, h4, h5⟩ := hrd he hp (by rw [hop]; rfl) hio hready
      obtain ⟨s3, s4⟩ := (m.succ l hl _ _ _ (hsrc ▸ hop)).1 (hsrc ▸ hp)
      exact .inr ⟨_, .leaveCfg h2 (by rw [r.root]; exact hroot) (by rw [m.ops p hp]; exact hop) h3 h4
        hrow hlen s4 hsrc hport (by rw [m.ops _ s3]; exact hdst) (m.parent p g hp hpar).2,
        r.rel0.put g fun _ => funcs_sum_cons h5⟩
    · exact .inl (r.rel0.skip hg _)

/-- The activation of `r` with the inputs `args` can also be started in `h'`. -/
def Startable (h : Hugr Ops.Op Meta) (S' : Sem W E) (h' : Hugr Ops.Op Meta)
    (Root : Nat → List (Val W) → Prop) (r : Nat) (args : List (Val W)) : Prop :=
  (∀ i o, IsRegion h r → HasIO h r i o → Occurs h' S' Root r args (.start r r i args)) ∧
  ∀ p i o vals, Begins h r args p vals → HasIO h p i o → Occurs h' S' Root r args (.start r p i vals)

theorem rel0_start {r p i : Nat} {vals : List (Val W)} (hf : FuncsInAll Fn vals) :
    Rel0 keep Fn (.start r p i vals) (.start r p i vals) :=
  Rel0.enter ⟨rfl, fun _ _ _ _ h => h, fun _ _ _ _ h => by simp at h, fun _ _ h => h⟩ p i fun _ => hf

theorem entered_region {r : Nat} {args : List (Val W)} {a : Activation W}
    (ho : Occurs h S Root r args a) (hr : IsRegion h r) : a.entered r := by
  have hb : ∀ (ins : List (Val W)) p vals, ¬ Begins h r ins p vals := by
    intro ins p vals hb
    rcases hr with ⟨x, y, hr⟩ | ⟨x, hr⟩ | ⟨x, y, z, hr⟩ <;> cases hb <;> simp_all
  induction ho with
  | region _ _ _ => exact .inl rfl
  | node _ hbeg _ => exact absurd hbeg (hb _ _ _)
  | step _ hs ih =>
    have := ih hr hb
    cases hs <;> first | exact this | exact .inr this
  | call _ _ _ _ _ _ _ => exact .inl rfl
  | ret _ _ _ _ _ _ _ _ _ ih _ => exact ih hr hb

theorem occurs_sim (m : Sim keep Fn B k h S h')
    (hbody : ∀ n (ins : List (Val W)) p vals i o,
      Begins h n ins p vals → HasIO h p i o → (body (h.ops p)).isSome = true)
    (hconst : ∀ r args a, Occurs h S Root r args a → ∀ b ∈ B, ∀ l ∈ h.links, b.node = l.dst →
      b.port = l.dstPort → ∀ v, a.wires l.src l.srcPort = some v → v = S.value b.val)
    {r : Nat} {args : List (Val W)} {a : Activation W} (ho : Occurs h S Root r args a) :
    FuncsInAll Fn args → keep r → Startable h { S with const := k } h' Root r args →
    ∃ a', Occurs h' { S with const := k } Root r args a' ∧ Rel keep Fn B S h' a a' := by
  have hdefn : ∀ f, IsDefn h f → (body (h.ops f)).isSome = true := by
    rintro f ⟨a, b, hf⟩
    rw [hf]; rfl
  induction ho with
  | region hr hreg hio =>
    intro hf hk hst
    exact settled m (hst.1 _ _ hreg hio) (rel0_start hf)
  | node hr hbeg hio =>
    intro hf hk hst
    exact settled m (hst.2 _ _ _ _ hbeg hio) (rel0_start ((begins_sim m hbeg).2 hk hf).2.2)
  | step ho hs ih =>
    intro hf hk hst
    obtain ⟨a', h1, h2⟩ := ih hf hk hst
    rcases step_sim m hbody h2 (hconst _ _ _ ho) hs with h3 | ⟨b', h3, h4⟩
    · exact settled m h1 h3
    · exact settled m (.step h1 h3) h4
  | call ho hat hready hcall hd hio ih =>
    intro hf hk hst
    exact settled m (hst.1 _ _ (.inl hd) hio) (rel0_start hf)
  | @ret r n f i o args ins fargs outs a b ho hat hready hcall hd hio hob hready' hlen ih ihb =>
    intro hf hk hst
    obtain ⟨a', h1, h2⟩ := ih hf hk hst
    by_cases hn : keep n
    · obtain ⟨p, hp, he⟩ := hat
      obtain ⟨r1, r2⟩ := ready_sim m h2 (hconst _ _ _ ho) hn hp he hready
      obtain ⟨h5, h6⟩ := m.parent n p hn hp
      obtain ⟨c1, c2, c3⟩ := calls_sim m hn hcall r2
      have hkf : keep f := c2.elim id fun hfn => m.fns f i o hfn hd hio
      have hd' : IsDefn h' f := by
        obtain ⟨x, y, hxy⟩ := hd
        exact ⟨x, y, by rw [m.ops f hkf]; exact hxy⟩
      obtain ⟨k1, k2, k3⟩ := m.io f i o hkf (hdefn f hd) hio
      have hat' : a'.at h' n := ⟨p, h6, h2.entered p h5 he⟩
      have hio0 := hio
      obtain ⟨b', b1, b2⟩ := ihb c3 hkf ⟨fun i' o' _ hio' => by
        obtain ⟨_, _, k6⟩ := m.io f i' o' hkf (hdefn f hd) hio'
        exact .call h1 hat' r1 c1 hd' k6, fun p' i' o' vals hbeg _ => by
          obtain ⟨x, y, hxy⟩ := hd
          cases hbeg <;> simp_all⟩
      have hent : b.entered f := entered_region hob (.inl hd)
      obtain ⟨e1, e2⟩ := ready_sim m b2 (hconst _ _ _ hob) k2 (m.ioParent f i o hio).2 hent hready'
      exact settled m (.ret h1 hat' r1 c1 hd' k3 b1 e1 (by rw [m.ops n hn]; exact hlen))
        (h2.rel0.put n fun _ => e2)
    · exact settled m h1 (h2.rel0.skip hn outs)

/-- The transformation preserves executions. -/
theorem sim_preserves (m : Sim keep Fn B k h S h')
    (hbody : ∀ n (ins : List (Val W)) p vals i o,
      Begins h n ins p vals → HasIO h p i o → (body (h.ops p)).isSome = true)
    (hconst : ∀ r args a, Occurs h S Root r args a → ∀ b ∈ B, ∀ l ∈ h.links, b.node = l.dst →
      b.port = l.dstPort → ∀ v, a.wires l.src l.srcPort = some v → v = S.value b.val)
    (hroot : ∀ r args, Root r args → keep r ∧ FuncsInAll Fn args)
    (hkeep : ∀ n, h.live n = true → h'.live n = true → keep n) :
    Preserves h S h' { S with const := k } Root := by
  intro r args a hr ho
  obtain ⟨hk, hf⟩ := hroot r args hr
  obtain ⟨a', h1, h2⟩ := occurs_sim m hbody hconst ho hf hk ⟨fun i o hreg hio => by
    have hreg' : IsRegion h' r := by
      simpa only [IsRegion, IsDefn, m.ops r hk] using hreg
    have hb : (body (h.ops r)).isSome = true := by
      rcases hreg with ⟨x, y, e⟩ | ⟨x, e⟩ | ⟨x, y, z, e⟩ <;> rw [e] <;> rfl
    exact .region hr hreg' (m.io r i o hk hb hio).2.2, fun p i o vals hbeg hio => by
      obtain ⟨b1, b2, _⟩ := (begins_sim m hbeg).2 hk hf
      exact .node hr b2 (m.io p i o b1 (hbody _ _ _ _ _ _ hbeg hio) hio).2.2⟩
  refine ⟨a', h1, fun n p v l1 l2 hv => h2.wires n p v (hkeep n l1 l2) hv,
    fun p l1 l2 he => h2.entered p (hkeep p l1 l2) he, fun p i o outs l1 l2 he hb hio hready => ?_⟩
  obtain ⟨h3, h4, h5⟩ := m.io p i o (hkeep p l1 l2) hb hio
  exact ⟨h5, (ready_sim m h2 (hconst _ _ _ ho) h4 (m.ioParent p i o hio).2 he hready).1⟩

/-- Two transformations after each other. -/
theorem Preserves.trans {h'' : Hugr Ops.Op Meta} {S' S'' : Sem W E} (p : Preserves h S h' S' Root)
    (q : Preserves h' S' h'' S'' Root) (hlive : ∀ n, h''.live n = true → h'.live n = true)
    (hops : ∀ n, h.live n = true → h''.live n = true → h'.ops n = h.ops n) :
    Preserves h S h'' S'' Root := by
  intro r args a hr ho
  obtain ⟨a', h1, h2⟩ := p r args a hr ho
  obtain ⟨a'', h3, h4⟩ := q r args a' hr h1
  refine ⟨a'', h3, fun n x v l1 l2 hv => ?_, fun x l1 l2 he => ?_, fun x i o outs l1 l2 he hb hio hrd => ?_⟩
  · exact h4.wires n x v (hlive n l2) l2 (h2.wires n x v l1 (hlive n l2) hv)
  · exact h4.entered x (hlive x l2) l2 (h2.entered x l1 (hlive x l2) he)
  · have l3 := hlive x l2
    obtain ⟨h5, h6⟩ := h2.returns x i o outs l1 l3 he hb hio hrd
    exact h4.returns x i o outs l3 l2 (h2.entered x l1 l3 he) (by rw [hops x l1 l2]; exact hb) h5 h6

end Proof

/-! ## What holds in a valid Hugr -/

section Valid
variable {C : Validate.Context} {h : Hugr Ops.Op Meta} (ht : IsTree h) (hv : Valid C h)
include ht

theorem io_parent {p i o : Nat} (hio : HasIO h p i o) :
    h.hier.parent i = some p ∧ h.hier.parent o = some p := by
  obtain ⟨rest, hc⟩ := hio
  change h.hier.children p = _ at hc
  exact ⟨(ht.child_iff p i).1 (by rw [hc]; simp), (ht.child_iff p o).1 (by rw [hc]; simp)⟩

theorem child_parent {n c : Nat} (hc : c ∈ h.children n) : h.hier.parent c = some n :=
  (ht.child_iff n c).1 hc

include hv

theorem begins_body (n : Nat) (ins : List (Val W)) (p : Nat) (vals : List (Val W)) (i o : Nat)
    (hb : Begins h n ins p vals) (_ : HasIO h p i o) : (body (h.ops p)).isSome = true := by
  cases hb with
  | dfg hop => rw [hop]; rfl
  | loop hop => rw [hop]; rfl
  | cond hop hc hr hl =>
    have hpar := child_parent ht (List.mem_of_getElem? hc)
    have := hv.contains _ _ hpar
    rw [hop] at this
    cases hq : h.ops p with
    | case sig => rfl
    | _ => rw [hq] at this; exact this.elim
  | cfg hop hc =>
    have hpar := child_parent ht (n := n) (c := p) (by rw [hc]; simp)
    have := hv.children n (ht.parent_live _ _ hpar).2
    unfold ChildrenOk at this
    rw [hop] at this
    obtain ⟨entry, exit, rest, a, b, h1, h2, _⟩ := this
    rw [hc] at h1
    simp only [List.cons.injEq] at h1
    rw [h1.1, h2]; rfl

theorem link_live {l : Link} (hl : l ∈ h.links) : h.live l.src = true ∧ h.live l.dst = true := by
  obtain ⟨kind, _, _, p, hp, hor⟩ := hv.kinds l hl
  refine ⟨(ht.parent_live _ _ hp).1, ?_⟩
  rcases hor with hor | ⟨q, _, hq, _⟩
  · exact (ht.parent_live _ _ hor).1
  · exact (ht.parent_live _ _ hq).1

/-- Links from a block go to a sibling, and not to an input for a value. -/
theorem block_link {l : Link} (hl : l ∈ h.links) {x y z} (hop : h.ops l.src = .dataflowBlock x y z) :
    (∃ p, h.hier.parent l.src = some p ∧ h.hier.parent l.dst = some p) ∧
    ¬ l.dstPort < numIns (h.ops l.dst) := by
  obtain ⟨kind, hk1, hk2, p, hp, hor⟩ := hv.kinds l hl
  have hkind : kind = .controlFlow := by
    have := hk1
    unfold srcKind at this
    rw [hop] at this
    simp only [Op.ports, List.getElem?_map, Option.map_eq_some_iff] at this
    obtain ⟨_, _, h2⟩ := this
    exact h2.symm
  subst hkind
  refine ⟨⟨p, hp, ?_⟩, fun hlt => ?_⟩
  · rcases hor with hor | ⟨q, a, hq, _, hor⟩
    · exact hor
    · simp [Kind.isStatic] at hor
  · have htag := hv.tags _ (link_live ht hv hl).2
    rw [numIns_eq htag] at hlt
    obtain ⟨t, ht'⟩ := in_value htag hlt
    rw [hk2] at ht'
    cases ht'

end Valid

end Verif.Dataflow
