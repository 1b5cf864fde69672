import Verif.Patch.SimpleReplaceLinks

/-!
# Replacing a subgraph keeps a Hugr valid: how often ports are linked
-/
namespace Verif.Patch

open Verif.Graph Verif.Ops Verif.Passes Verif.Validate Verif.Dataflow

variable {Meta : Type} {C C' : Validate.Context} {h r g : Hugr Ops.Op Meta} {s : Subgraph} {i o p : Nat}
  {f : Nat → Nat}

/-! ## Counting -/

theorem countP_uniq {α : Type} {L : List α} {P : α → Bool} (h1 : L.countP P = 1) :
    ∃ x ∈ L, P x = true ∧ ∀ y ∈ L, P y = true → y = x := by
  rw [List.countP_eq_length_filter] at h1
  obtain ⟨x, hx⟩ := List.length_eq_one_iff.1 h1
  have hm : ∀ y, y ∈ L ∧ P y = true ↔ y = x := by
    intro y
    rw [← List.mem_filter, hx, List.mem_singleton]
  exact ⟨x, ((hm x).2 rfl).1, ((hm x).2 rfl).2, fun y hy hp => (hm y).1 ⟨hy, hp⟩⟩

theorem countP_one {α : Type} {L : List α} {P Q : α → Bool} (h1 : L.countP P = 1) {x : α} (hx : x ∈ L)
    (hq : Q x = true) (hle : ∀ y ∈ L, Q y = true → P y = true) : L.countP Q = 1 := by
  have h2 := List.countP_mono_left hle
  have h3 : 0 < L.countP Q := List.countP_pos_iff.2 ⟨x, hx, hq⟩
  omega

theorem countP_none {α : Type} {L : List α} {Q : α → Bool} (hq : ∀ y ∈ L, Q y = true → False) : L.countP Q = 0 :=
  List.countP_eq_zero.2 fun y hy e => hq y hy e

theorem sum_zipIdx {α : Type} (G : α × Nat → Nat) (xs : List α) (st : Nat) :
    (∀ k a, xs[k]? = some a → G (a, st + k) = 0) → ((xs.zipIdx st).map G).sum = 0 := by
  induction xs generalizing st with
  | nil => intro _; rfl
  | cons x xs ih =>
    intro hz
    rw [List.zipIdx_cons, List.map_cons, List.sum_cons, ih (st + 1), (show G (x, st) = 0 from hz 0 x rfl)]
    intro k a hk
    have := hz (k + 1) a hk
    rwa [← Nat.add_assoc, Nat.add_right_comm] at this

theorem sum_zipIdx_one {α : Type} (G : α × Nat → Nat) (xs : List α) (st k0 : Nat) (a0 : α) :
    xs[k0]? = some a0 → (∀ k a, xs[k]? = some a → k ≠ k0 → G (a, st + k) = 0) →
    ((xs.zipIdx st).map G).sum = G (a0, st + k0) := by
  induction xs generalizing st k0 with
  | nil => intro hk; cases hk
  | cons x xs ih =>
    intro hk hz
    rw [List.zipIdx_cons, List.map_cons, List.sum_cons]
    cases k0 with
    | zero =>
      simp only [List.getElem?_cons_zero, Option.some.injEq] at hk
      subst hk
      rw [sum_zipIdx]
      · simp
      · intro k a hk
        have := hz (k + 1) a hk (by omega)
        rwa [← Nat.add_assoc, Nat.add_right_comm] at this
    | succ k0 =>
      rw [ih (st + 1) k0 hk, (show G (x, st) = 0 from hz 0 x rfl (by omega))]
      · rw [Nat.zero_add]; congr 2; omega
      · intro k a hk hne
        have := hz (k + 1) a hk (by omega)
        rwa [← Nat.add_assoc, Nat.add_right_comm] at this

theorem countP_flatMap_sum {α β : Type} (P : β → Bool) (F : α → List β) (xs : List α) :
    (xs.flatMap F).countP P = (xs.map fun x => (F x).countP P).sum := by
  induction xs with
  | nil => rfl
  | cons x xs ih => rw [List.flatMap_cons, List.countP_append, ih, List.map_cons, List.sum_cons]

theorem countP_split {α β : Type} (P : β → Bool) (c : α → Bool) (F : α → List β) (xs : List α) :
    (xs.flatMap fun x => if c x then F x else []).countP P + (xs.flatMap fun x => if c x then [] else F x).countP P =
      (xs.map fun x => (F x).countP P).sum := by
  induction xs with
  | nil => rfl
  | cons x xs ih =>
    rw [List.flatMap_cons, List.flatMap_cons, List.countP_append, List.countP_append, List.map_cons, List.sum_cons, ← ih]
    cases c x <;> simp <;> omega

/-- The links at a port. -/
def toPort (n port : Nat) (l : Link) : Bool := l.dst == n && l.dstPort == port
def fromPort (n port : Nat) (l : Link) : Bool := l.src == n && l.srcPort == port

theorem toPort_iff {n port : Nat} {l : Link} : toPort n port l = true ↔ l.dst = n ∧ l.dstPort = port := by
  simp [toPort]
theorem fromPort_iff {n port : Nat} {l : Link} : fromPort n port l = true ↔ l.src = n ∧ l.srcPort = port := by
  simp [fromPort]

/-- The links that stay. -/
def keeps (s : Subgraph) (l : Link) : Bool := decide (l.src ∉ s.nodes) && decide (l.dst ∉ s.nodes)

theorem keeps_iff {l : Link} : keeps s l = true ↔ l.src ∉ s.nodes ∧ l.dst ∉ s.nodes := by simp [keeps]

/-- The number of links that the `k`-th input, the `j`-th output gives rise to. -/
def inCountAt (h r : Hugr Ops.Op Meta) (i o : Nat) (f : Nat → Nat) (P : Link → Bool)
    (pk : List (Nat × Nat) × Nat) : Nat :=
  r.links.countP fun l => decide (l.src = i) && decide (l.srcPort = pk.2) && decide (l.dst ≠ o) &&
    P (edgeLink f (srcAt h pk.1, .repl l.dst l.dstPort))
def outCountAt (h r : Hugr Ops.Op Meta) (s : Subgraph) (i o : Nat) (f : Nat → Nat) (P : Link → Bool)
    (nj : (Nat × Nat) × Nat) : Nat :=
  h.links.countP fun l => decide (l.src = nj.1.1) && decide (l.srcPort = nj.1.2) &&
    P (edgeLink f (resAt s h r i o nj.2, .host l.dst l.dstPort))

theorem count_replaced (P : Link → Bool) : (replacedLinks h r s i o f).countP P =
    h.links.countP (fun l => P l && keeps s l) +
    r.links.countP (fun l => decide (l.src ∈ freshNodes r i o) && decide (l.dst ∈ freshNodes r i o) &&
      (P (l.rename f) && keeps s (l.rename f))) +
    ((s.inputs.zipIdx.map (inCountAt h r i o f fun l => P l && keeps s l)).sum +
     (s.outputs.zipIdx.map (outCountAt h r s i o f fun l => P l && keeps s l)).sum) := by
  unfold replacedLinks
  rw [List.countP_filter]
  have e : (fun l : Link => P l && (decide (l.src ∉ s.nodes) && decide (l.dst ∉ s.nodes))) = fun l => P l && keeps s l := rfl
  rw [e]
  rw [List.countP_append, List.countP_append, List.countP_map, List.countP_map, List.countP_filter]
  congr 1
  · congr 1
    refine List.countP_congr fun l _ => ?_
    simp only [Function.comp, Bool.and_eq_true]
    tauto
  · unfold boundary
    rw [List.countP_append, List.countP_append, Nat.add_assoc, countP_flatMap_sum, countP_split]
    congr 1
    · congr 1
      refine List.map_congr_left fun pk _ => ?_
      unfold inEdges inCountAt Hugr.linkedInputs
      rw [List.countP_map, List.countP_filter, List.countP_map, List.countP_filter]
      refine List.countP_congr fun l _ => ?_
      simp only [Function.comp, Bool.and_eq_true]
      tauto
    · congr 1
      refine List.map_congr_left fun nj _ => ?_
      unfold outEdges outCountAt Hugr.linkedInputs
      rw [List.countP_map, List.countP_map, List.countP_filter]
      refine List.countP_congr fun l _ => ?_
      simp only [Function.comp, Bool.and_eq_true]
      tauto

theorem flatten_nodup {α : Type} {xs : List (List α)} (hn : xs.flatten.Nodup) {k k' : Nat} {A B : List α} {x : α}
    (h1 : xs[k]? = some A) (h2 : xs[k']? = some B) (ha : x ∈ A) (hb : x ∈ B) : k = k' := by
  induction xs generalizing k k' with
  | nil => cases h1
  | cons y ys ih =>
    rw [List.flatten_cons, List.nodup_append] at hn
    obtain ⟨_, n2, n3⟩ := hn
    cases k with
    | zero =>
      cases k' with
      | zero => rfl
      | succ k' =>
        simp only [List.getElem?_cons_zero, Option.some.injEq] at h1
        subst h1
        exact absurd rfl (n3 x ha x (List.mem_flatten.2 ⟨B, List.mem_of_getElem? h2, hb⟩))
    | succ k =>
      cases k' with
      | zero =>
        simp only [List.getElem?_cons_zero, Option.some.injEq] at h2
        subst h2
        exact absurd rfl (n3 x hb x (List.mem_flatten.2 ⟨A, List.mem_of_getElem? h1, ha⟩))
      | succ k' => rw [ih n2 h1 h2]

namespace SwapAt

variable (z : SwapAt C C' h r g p i o s f)
include z

theorem i_value {k x xp : Nat} (hl : ⟨i, k, x, xp⟩ ∈ r.links) : k < s.inputs.length := by
  obtain ⟨sg, _, hi, ho, ⟨hl1, _⟩, _⟩ := z.sig
  obtain ⟨kind, k1, _, _⟩ := z.validR.kinds _ hl
  by_contra hlt
  have hk : kind = .stateOrder := by
    simp only [srcKind, hi, Op.ports] at k1
    rw [List.getElem?_append_right (by simp; omega)] at k1
    have := List.mem_of_getElem? k1
    simpa using this
  subst hk
  exact (z.plain _ hl k1).1 rfl

theorem o_value {x xp j : Nat} (hl : ⟨x, xp, o, j⟩ ∈ r.links) : j < s.outputs.length := by
  obtain ⟨sg, _, hi, ho, _, hl1, _⟩ := z.sig
  obtain ⟨kind, k1, k2, _⟩ := z.validR.kinds _ hl
  by_contra hlt
  have hk : kind = .stateOrder := by
    simp only [ho, Op.ports] at k2
    rw [List.getElem?_append_right (by simp; omega)] at k2
    have := List.mem_of_getElem? k2
    simpa using this
  subst hk
  exact (z.plain _ hl k1).2 rfl

theorem not_to_i {l : Link} (hl : l ∈ r.links) : l.dst ≠ i := by
  obtain ⟨sg, _, hi, ho, _⟩ := z.sig
  obtain ⟨kind, _, k2, _⟩ := z.validR.kinds _ hl
  intro e
  rw [e, hi] at k2
  simp [Op.ports] at k2

theorem not_from_o {l : Link} (hl : l ∈ r.links) : l.src ≠ o := by
  obtain ⟨sg, _, hi, ho, _⟩ := z.sig
  obtain ⟨kind, k1, _, _⟩ := z.validR.kinds _ hl
  intro e
  simp only [srcKind] at k1
  rw [e, ho] at k1
  simp [Op.ports] at k1

theorem fresh_src {l : Link} (hl : l ∈ r.links) (hd : Fresh r i o l.dst) (hi : l.src ≠ i) : Fresh r i o l.src :=
  ⟨(z.body.closed l hl).2 hd.1, hi, z.not_from_o hl⟩

theorem fresh_dst {l : Link} (hl : l ∈ r.links) (hd : Fresh r i o l.src) (ho : l.dst ≠ o) : Fresh r i o l.dst :=
  ⟨(z.body.closed l hl).1 hd.1, z.not_to_i hl, ho⟩

/-- The source of an input. -/
theorem srcAt_eq {part : List (Nat × Nat)} (hp : part ∈ s.inputs) : ∃ n np rest a ap, part = (n, np) :: rest ∧
    srcAt h part = .host a ap ∧ ⟨a, ap, n, np⟩ ∈ h.links ∧ a ∉ s.nodes ∧ n ∈ s.nodes := by
  obtain ⟨n, np, rest, a, ap, rfl, _, e3, e4⟩ := inputSource_eq z.wired hp
  have hl := (e4 a ap).2 ⟨rfl, rfl⟩
  exact ⟨n, np, rest, a, ap, rfl, e3, hl, z.sep.outside _ hp _ hl (by simp), z.removable.inputs _ hp (n, np) (by simp)⟩

/-- The source of an output. -/
theorem resAt_eq {j : Nat} (hj : j < s.outputs.length) :
    (∃ x xp, Fresh r i o x ∧ resAt s h r i o j = .repl x xp ∧ ∀ x' xp', ⟨x', xp', o, j⟩ ∈ r.links ↔ x' = x ∧ xp' = xp) ∨
    ∃ k part, s.inputs[k]? = some part ∧ resAt s h r i o j = srcAt h part ∧
       ∀ x' xp', ⟨x', xp', o, j⟩ ∈ r.links ↔ x' = i ∧ xp' = k := by
  obtain ⟨_, ⟨x, xp, hx, hres, hu⟩ | ⟨k, part, hk, hpm, hres, hu⟩⟩ := outputSource_eq z.wired hj
  · exact .inl ⟨x, xp, z.wired.stop _ _ _ ((hu x xp).2 ⟨rfl, rfl⟩) hx, hres, hu⟩
  · exact .inr ⟨k, part, hk, hres, hu⟩

theorem res_kept {j : Nat} (hj : j < s.outputs.length) : (resAt s h r i o j).node f ∉ s.nodes := by
  rcases z.resAt_eq hj with ⟨x, xp, hx, hres, _⟩ | ⟨k, part, hk, hres, _⟩
  · rw [hres]; exact z.fresh_kept hx
  · obtain ⟨_, _, _, a, ap, _, e, _, ha, _⟩ := z.srcAt_eq (List.mem_of_getElem? hk)
    rw [hres, e]; exact ha

theorem out_index {n np : Nat} (hm : (n, np) ∈ s.outputs) : ∃ j, s.outputs[j]? = some (n, np) ∧
    ∀ j' : Nat, s.outputs[j']? = some (n, np) → j' = j := by
  obtain ⟨j, hj⟩ := List.mem_iff_getElem?.1 hm
  refine ⟨j, hj, fun j' hj' => ?_⟩
  obtain ⟨h1, e1⟩ := List.getElem?_eq_some_iff.1 hj
  obtain ⟨h2, e2⟩ := List.getElem?_eq_some_iff.1 hj'
  exact (List.Nodup.getElem_inj_iff z.sep.outputs_nodup).1 (e2.trans e1.symm)

theorem freshNode {x : Nat} : x ∈ freshNodes r i o ↔ Fresh r i o x := mem_fresh z.treeR

/-! ## Incoming ports -/

theorem in_new (hperm : g.links.Perm (replacedLinks h r s i o f)) {x port : Nat} (hx : Fresh r i o x)
    (h1 : r.links.countP (toPort (x) port) = 1) :
    g.links.countP (toPort (f x) port) = 1 := by
  rw [hperm.countP_eq, count_replaced]
  obtain ⟨R, hR, hP, hu⟩ := countP_uniq h1
  simp only [toPort_iff] at hP hu
  rw [countP_none (L := h.links)]
  rotate_left
  · intro l hl e
    simp only [Bool.and_eq_true, toPort_iff] at e
    exact z.old (z.live_link hl).2 hx e.1.1
  rw [sum_zipIdx (outCountAt _ _ _ _ _ _ _)]
  rotate_left
  · intro j nj hj
    refine countP_none fun l hl e => ?_
    simp only [Bool.and_eq_true, toPort_iff] at e
    exact z.old (z.live_link hl).2 hx e.2.1.1
  have hsub : ∀ l ∈ r.links, Fresh r i o l.dst → f l.dst = f x → l.dstPort = port → l = R := by
    intro l hl hf e1 e2
    exact hu l hl ⟨z.replaced.injective _ _ hf hx e1, e2⟩
  by_cases hi : R.src = i
  · rw [countP_none (L := r.links)]
    rotate_left
    · intro l hl e
      simp only [Bool.and_eq_true, decide_eq_true_eq, Link.rename, z.freshNode, toPort_iff] at e
      have := hsub l hl e.1.2 e.2.1.1 e.2.1.2
      rw [this] at e
      exact e.1.1.2.1 hi
    have hlt : R.srcPort < s.inputs.length := z.i_value (x := R.dst) (xp := R.dstPort) (by rw [← hi]; exact hR)
    rw [sum_zipIdx_one _ _ 0 R.srcPort _ (List.getElem?_eq_getElem hlt)]
    · simp only [Nat.zero_add, Nat.add_zero]
      unfold inCountAt
      obtain ⟨n, np, rest, a, ap, _, e, _, ha, _⟩ := z.srcAt_eq (List.getElem_mem hlt)
      refine countP_one h1 hR ?_ ?_
      · simp only [Bool.and_eq_true, decide_eq_true_eq, keeps_iff, toPort_iff, edgeLink, e, BPort.node, BPort.port, hP.1]
        exact ⟨⟨⟨hi, trivial⟩, hx.2.2⟩, ⟨trivial, hP.2⟩, ha, z.fresh_kept hx⟩
      · intro l hl e'
        simp only [Bool.and_eq_true, decide_eq_true_eq, toPort_iff, edgeLink, BPort.node, BPort.port] at e'
        have hf := z.wired.start l.srcPort l.dst l.dstPort (by rw [← e'.1.1.1]; exact hl) e'.1.2
        rw [hsub l hl hf e'.2.1.1 e'.2.1.2]
        simp [toPort_iff, hP]
    · intro k part hk hne
      refine countP_none fun l hl e' => ?_
      simp only [Bool.and_eq_true, decide_eq_true_eq, toPort_iff, edgeLink, BPort.node, BPort.port] at e'
      have hf := z.wired.start l.srcPort l.dst l.dstPort (by rw [← e'.1.1.1]; exact hl) e'.1.2
      have := hsub l hl hf e'.2.1.1 e'.2.1.2
      rw [this] at e'
      omega
  · have hf := z.fresh_src hR (by rw [hP.1]; exact hx) hi
    rw [countP_one (L := r.links) h1 hR]
    · rw [sum_zipIdx]
      intro k part hk
      refine countP_none fun l hl e' => ?_
      simp only [Bool.and_eq_true, decide_eq_true_eq, toPort_iff, edgeLink, BPort.node, BPort.port] at e'
      have hf := z.wired.start l.srcPort l.dst l.dstPort (by rw [← e'.1.1.1]; exact hl) e'.1.2
      have := hsub l hl hf e'.2.1.1 e'.2.1.2
      rw [this] at e'
      exact hi e'.1.1.1
    · simp only [Bool.and_eq_true, decide_eq_true_eq, Link.rename, z.freshNode, keeps_iff, toPort_iff, hP.1]
      exact ⟨⟨hf, hx⟩, ⟨trivial, hP.2⟩, z.fresh_kept hf, z.fresh_kept hx⟩
    · intro l hl e
      simp only [Bool.and_eq_true, decide_eq_true_eq, Link.rename, z.freshNode, toPort_iff] at e
      rw [hsub l hl e.1.2 e.2.1.1 e.2.1.2]
      simp [toPort_iff, hP]

theorem in_old (hperm : g.links.Perm (replacedLinks h r s i o f)) {b port : Nat} (hb : h.live b = true) (hk : b ∉ s.nodes)
    (h1 : h.links.countP (toPort (b) port) = 1)
    (hord : ∀ l ∈ h.links, l.dst = b → l.dstPort = port → srcKind h l ≠ some .stateOrder) :
    g.links.countP (toPort (b) port) = 1 := by
  rw [hperm.countP_eq, count_replaced]
  obtain ⟨L, hL, hP, hu⟩ := countP_uniq h1
  simp only [toPort_iff] at hP hu
  rw [countP_none (L := r.links)]
  rotate_left
  · intro l hl e
    simp only [Bool.and_eq_true, decide_eq_true_eq, Link.rename, z.freshNode, toPort_iff] at e
    exact z.old hb e.1.2 e.2.1.1.symm
  rw [sum_zipIdx (inCountAt _ _ _ _ _ _)]
  rotate_left
  · intro k part hk
    refine countP_none fun l hl e' => ?_
    simp only [Bool.and_eq_true, decide_eq_true_eq, toPort_iff, edgeLink, BPort.node, BPort.port] at e'
    have hf := z.wired.start l.srcPort l.dst l.dstPort (by rw [← e'.1.1.1]; exact hl) e'.1.2
    exact z.old hb hf e'.2.1.1.symm
  by_cases hn : L.src ∈ s.nodes
  · rw [countP_none (L := h.links)]
    rotate_left
    · intro l hl e
      simp only [Bool.and_eq_true, decide_eq_true_eq, keeps_iff, toPort_iff] at e
      rw [hu l hl e.1] at e
      exact e.2.1 hn
    obtain ⟨j, hj, hju⟩ := z.out_index (z.sep.leaves L hL hn (by rw [hP.1]; exact hk) (hord L hL hP.1 hP.2)).1
    have hlt := (List.getElem?_eq_some_iff.1 hj).1
    rw [sum_zipIdx_one _ _ 0 j _ hj]
    · simp only [Nat.zero_add, Nat.add_zero]
      unfold outCountAt
      refine countP_one h1 hL ?_ ?_
      · simp only [Bool.and_eq_true, decide_eq_true_eq, keeps_iff, toPort_iff, edgeLink, BPort.node, BPort.port]
        exact ⟨⟨trivial, trivial⟩, hP, z.res_kept hlt, by rw [hP.1]; exact hk⟩
      · intro l hl e
        simp only [Bool.and_eq_true, decide_eq_true_eq, toPort_iff, edgeLink, BPort.node, BPort.port] at e ⊢
        exact e.2.1
    · intro j' nj hj' hne
      refine countP_none fun l hl e => ?_
      simp only [Bool.and_eq_true, decide_eq_true_eq, toPort_iff, edgeLink, BPort.node, BPort.port] at e
      rw [hu l hl e.2.1] at e
      exact hne (hju j' (by rw [hj', e.1.1, e.1.2]))
  · rw [countP_one (L := h.links) h1 hL]
    · rw [sum_zipIdx]
      intro j nj hj
      refine countP_none fun l hl e => ?_
      simp only [Bool.and_eq_true, decide_eq_true_eq, toPort_iff, edgeLink, BPort.node, BPort.port] at e
      rw [hu l hl e.2.1] at e
      exact hn (by rw [e.1.1]; exact z.removable.outputs _ (List.mem_of_getElem? hj))
    · simp only [Bool.and_eq_true, decide_eq_true_eq, keeps_iff, toPort_iff]
      exact ⟨hP, hn, by rw [hP.1]; exact hk⟩
    · intro l hl e
      simp only [Bool.and_eq_true, toPort_iff] at e ⊢
      exact e.1

theorem linksTo_count {g : Hugr Ops.Op Meta} {n port : Nat} : (linksTo g n port).length =
    g.links.countP (toPort (n) port) := by
  unfold linksTo
  rw [List.countP_eq_length_filter]
  congr 1

theorem v_inDegree (hperm : g.links.Perm (replacedLinks h r s i o f)) {x port : Nat} {kind : Kind}
    (hx : g.live x = true) (hkx : ((g.ops x).ports .incoming)[port]? = some kind) :
    InDegreeOk kind (linksTo g x port).length := by
  rcases z.cases2 hx with ⟨hl, hk⟩ | ⟨a, ha, rfl⟩
  · rw [z.ops_old hl hk] at hkx
    have hd := z.valid.inDegree x port kind hl hkx
    have hsrc : ∀ l ∈ h.links, l.dst = x → l.dstPort = port → srcKind h l = some kind := by
      rintro l hl' rfl rfl
      obtain ⟨kind', k1, k2, _⟩ := z.valid.kinds l hl'
      rw [hkx] at k2; cases k2; exact k1
    cases kind with
    | value t =>
      simp only [InDegreeOk] at hd ⊢
      rw [linksTo_count z] at hd ⊢
      exact z.in_old hperm hl hk hd (fun l h1 h2 h3 e => by rw [hsrc l h1 h2 h3] at e; cases e)
    | const t =>
      simp only [InDegreeOk] at hd ⊢
      rw [linksTo_count z] at hd ⊢
      exact z.in_old hperm hl hk hd (fun l h1 h2 h3 e => by rw [hsrc l h1 h2 h3] at e; cases e)
    | function pf =>
      simp only [InDegreeOk] at hd ⊢
      obtain ⟨l, hlm⟩ := List.exists_mem_of_length_pos hd
      obtain ⟨h1, h2⟩ := List.mem_filter.1 hlm
      simp only [Bool.and_eq_true, decide_eq_true_eq] at h2
      have hs := hsrc l h1 h2.1 h2.2
      have hn : l.src ∉ s.nodes := by
        intro hn
        have := (z.sep.leaves l h1 hn (by rw [h2.1]; exact hk) (by rw [hs]; simp)).1
        obtain ⟨j, hj⟩ := List.mem_iff_getElem?.1 this
        obtain ⟨t, t1, _⟩ := z.output_kind hj
        simp only [srcKind] at hs
        rw [hs] at t1; cases t1
      exact List.length_pos_of_mem (List.mem_filter.2 ⟨z.link_old h1 hn (by rw [h2.1]; exact hk), by simp [h2]⟩)
    | controlFlow => trivial
    | stateOrder => trivial
  · rw [z.ops_new ha] at hkx
    have hal : r.live a = true := by
      obtain ⟨q, hq⟩ := z.has_parent ha
      exact (z.treeR.parent_live _ _ hq).1
    have hd := z.validR.inDegree a port kind hal hkx
    cases kind with
    | value t =>
      simp only [InDegreeOk] at hd ⊢
      rw [linksTo_count z] at hd ⊢
      exact z.in_new hperm ha hd
    | const t =>
      simp only [InDegreeOk] at hd ⊢
      rw [linksTo_count z] at hd ⊢
      exact z.in_new hperm ha hd
    | function pf =>
      simp only [InDegreeOk] at hd ⊢
      obtain ⟨l, hlm⟩ := List.exists_mem_of_length_pos hd
      obtain ⟨h1, h2⟩ := List.mem_filter.1 hlm
      simp only [Bool.and_eq_true, decide_eq_true_eq] at h2
      have hni : l.src ≠ i := by
        intro e
        obtain ⟨kind', k1, k2, _⟩ := z.validR.kinds l h1
        rw [h2.1, h2.2, hkx] at k2; cases k2
        obtain ⟨sg, _, hi, _⟩ := z.sig
        simp only [srcKind] at k1
        rw [e, hi] at k1
        have := List.mem_of_getElem? k1
        simp [Op.ports] at this
      have hf := z.fresh_src h1 (by rw [h2.1]; exact ha) hni
      exact List.length_pos_of_mem (List.mem_filter.2 ⟨z.link_new h1 hf (by rw [h2.1]; exact ha), by simp [h2]⟩)
    | controlFlow => trivial
    | stateOrder => trivial

/-! ## Outgoing ports -/

theorem linksFrom_count {g : Hugr Ops.Op Meta} {n port : Nat} : (linksFrom g n port).length =
    g.links.countP (fromPort n port) := by
  unfold linksFrom
  rw [List.countP_eq_length_filter]
  congr 1

/-- A value that may not be copied has one use, and that is outside. -/
theorem output_once {j n np : Nat} {t : Types.Ty} (hj : s.outputs[j]? = some (n, np))
    (ht : ((h.ops n).ports .outgoing)[np]? = some (.value t)) (hc : t.copyable = false) :
    ∃ L ∈ h.links, L.src = n ∧ L.srcPort = np ∧ L.dst ∉ s.nodes ∧ h.links.countP (fromPort n np) = 1 := by
  have hn := z.removable.outputs _ (List.mem_of_getElem? hj)
  have hd := z.valid.outDegree n np _ (z.node_live hn) ht
  simp only [OutDegreeOk, hc, Bool.false_eq_true, false_or] at hd
  rw [linksFrom_count z] at hd
  obtain ⟨L, hL, hP, _⟩ := countP_uniq hd
  rw [fromPort_iff] at hP
  refine ⟨L, hL, hP.1, hP.2, ?_, hd⟩
  refine z.sep.linear L hL (by rw [hP.1, hP.2]; exact List.mem_of_getElem? hj) t ?_ hc
  simp only [srcKind, hP]
  exact ht

/-- The links of the one use of an output. -/
theorem out_at {j n np a ap : Nat} {t : Types.Ty} (hj : s.outputs[j]? = some (n, np))
    (ht : ((h.ops n).ports .outgoing)[np]? = some (.value t)) (hc : t.copyable = false)
    (hres : (resAt s h r i o j).node f = a ∧ (resAt s h r i o j).port = ap) :
    outCountAt h r s i o f (fun l => fromPort a ap l && keeps s l) ((n, np), j) = 1 := by
  obtain ⟨L, hL, h1, h2, h3, h4⟩ := z.output_once hj ht hc
  have hlt := (List.getElem?_eq_some_iff.1 hj).1
  refine countP_one h4 hL ?_ ?_
  · simp only [Bool.and_eq_true, decide_eq_true_eq, fromPort_iff, keeps_iff, edgeLink, BPort.node, BPort.port]
    exact ⟨⟨h1, h2⟩, hres, z.res_kept hlt, h3⟩
  · intro l hl e
    simp only [Bool.and_eq_true, decide_eq_true_eq, fromPort_iff] at e ⊢
    exact e.1

theorem block_kept {m mp : Nat} (hm : m ∈ s.nodes) : ((h.ops m).ports .incoming)[mp]? ≠ some .controlFlow := by
  intro hk
  have hc := z.valid.contains _ _ (z.removable.parent m hm)
  have hb := z.removable.region
  have hd : DataflowChild (h.ops m) := by
    unfold MayContain at hc
    cases hop : h.ops p <;> rw [hop] at hb hc <;> simp [Validate.body] at hb <;> exact hc.2
  have hmem := List.mem_of_getElem? hk
  cases hop : h.ops m <;> rw [hop] at hd hmem <;> simp [DataflowChild] at hd <;> simp [Op.ports] at hmem

theorem out_new (hperm : g.links.Perm (replacedLinks h r s i o f)) {x port : Nat} (hx : Fresh r i o x) {kind : Kind}
    (hkx : ((r.ops x).ports .outgoing)[port]? = some kind) (hlin : ∀ t, kind = .value t → t.copyable = false)
    (hst : kind ≠ .stateOrder) (h1 : r.links.countP (fromPort x port) = 1) :
    g.links.countP (fromPort (f x) port) = 1 := by
  rw [hperm.countP_eq, count_replaced]
  obtain ⟨R, hR, hP, hu⟩ := countP_uniq h1
  simp only [fromPort_iff] at hP hu
  rw [countP_none (L := h.links)]
  rotate_left
  · intro l hl e
    simp only [Bool.and_eq_true, fromPort_iff] at e
    exact z.old (z.live_link hl).1 hx e.1.1
  rw [sum_zipIdx (inCountAt _ _ _ _ _ _)]
  rotate_left
  · intro k part hk
    refine countP_none fun l hl e => ?_
    obtain ⟨_, _, _, a, ap, _, e', hla, _⟩ := z.srcAt_eq (List.mem_of_getElem? hk)
    simp only [Bool.and_eq_true, decide_eq_true_eq, fromPort_iff, edgeLink, e', BPort.node, BPort.port] at e
    exact z.old (z.live_link hla).1 hx e.2.1.1
  -- outputs that come from this port
  have hres : ∀ j, j < s.outputs.length → (resAt s h r i o j).node f = f x → (resAt s h r i o j).port = port →
      R.dst = o ∧ R.dstPort = j := by
    intro j hj e1 e2
    rcases z.resAt_eq hj with ⟨y, yp, hy, hr, hl⟩ | ⟨k, part, hk, hr, hl⟩
    · rw [hr] at e1 e2
      have hyx := z.replaced.injective _ _ hy hx e1
      simp only [BPort.port] at e2
      have := hu _ ((hl y yp).2 ⟨rfl, rfl⟩) ⟨hyx, e2⟩
      rw [← this]
      exact ⟨rfl, rfl⟩
    · obtain ⟨_, _, _, a, ap, _, e', hla, _⟩ := z.srcAt_eq (List.mem_of_getElem? hk)
      rw [hr, e'] at e1
      exact absurd e1 (z.old (z.live_link hla).1 hx)
  by_cases ho : R.dst = o
  · rw [countP_none (L := r.links)]
    rotate_left
    · intro l hl e
      simp only [Bool.and_eq_true, decide_eq_true_eq, Link.rename, z.freshNode, fromPort_iff] at e
      have := hu l hl ⟨z.replaced.injective _ _ e.1.1 hx e.2.1.1, e.2.1.2⟩
      rw [this] at e
      exact e.1.2.2.2 ho
    have hRo : (⟨x, port, o, R.dstPort⟩ : Link) ∈ r.links := by
      rw [← hP.1, ← hP.2, ← ho]; exact hR
    have hlt := z.o_value hRo
    obtain ⟨nj, hnj⟩ : ∃ nj, s.outputs[R.dstPort]? = some nj := ⟨_, List.getElem?_eq_getElem hlt⟩
    obtain ⟨n, np⟩ := nj
    rw [sum_zipIdx_one _ _ 0 R.dstPort _ hnj]
    · simp only [Nat.zero_add]
      obtain ⟨t, t1, t2⟩ := z.output_kind hnj
      have hkt : kind = .value t := by
        obtain ⟨kind', k1, k2, _⟩ := z.validR.kinds _ hRo
        simp only [srcKind] at k1 k2
        rw [hkx] at k1; cases k1
        rw [t2] at k2; cases k2; rfl
      refine z.out_at hnj t1 (hlin t hkt) ?_
      rcases z.resAt_eq hlt with ⟨y, yp, hy, hr, hl⟩ | ⟨k, part, hk, hr, hl⟩
      · obtain ⟨e1, e2⟩ := (hl x port).1 hRo
        rw [hr, e1, e2]
        exact ⟨rfl, rfl⟩
      · exact absurd ((hl x port).1 hRo).1 hx.2.1
    · intro j nj hj hne
      refine countP_none fun l hl e => ?_
      simp only [Bool.and_eq_true, decide_eq_true_eq, fromPort_iff, edgeLink] at e
      have := hres j (List.getElem?_eq_some_iff.1 hj).1 (by simpa using e.2.1.1) (by simpa using e.2.1.2)
      omega
  · have hf := z.fresh_dst hR (by rw [hP.1]; exact hx) ho
    rw [countP_one (L := r.links) h1 hR]
    · rw [sum_zipIdx]
      intro j nj hj
      refine countP_none fun l hl e => ?_
      simp only [Bool.and_eq_true, decide_eq_true_eq, fromPort_iff, edgeLink] at e
      exact ho (hres j (List.getElem?_eq_some_iff.1 hj).1 (by simpa using e.2.1.1) (by simpa using e.2.1.2)).1
    · simp only [Bool.and_eq_true, decide_eq_true_eq, Link.rename, z.freshNode, keeps_iff, fromPort_iff, hP.1]
      exact ⟨⟨hx, hf⟩, ⟨trivial, hP.2⟩, z.fresh_kept hx, z.fresh_kept hf⟩
    · intro l hl e
      simp only [Bool.and_eq_true, decide_eq_true_eq, Link.rename, z.freshNode, fromPort_iff] at e ⊢
      exact ⟨z.replaced.injective _ _ e.1.1 hx e.2.1.1, e.2.1.2⟩

theorem out_old (hperm : g.links.Perm (replacedLinks h r s i o f)) {a port : Nat} (hl : h.live a = true) (hk : a ∉ s.nodes)
    {kind : Kind} (hkx : ((h.ops a).ports .outgoing)[port]? = some kind)
    (hkind : kind = .controlFlow ∨ ∃ t, kind = .value t ∧ t.copyable = false)
    (h1 : h.links.countP (fromPort a port) = 1) : g.links.countP (fromPort a port) = 1 := by
  rw [hperm.countP_eq, count_replaced]
  obtain ⟨L, hL, hP, hu⟩ := countP_uniq h1
  simp only [fromPort_iff] at hP hu
  rw [countP_none (L := r.links)]
  rotate_left
  · intro l hl' e
    simp only [Bool.and_eq_true, decide_eq_true_eq, Link.rename, z.freshNode, fromPort_iff] at e
    exact z.old hl e.1.1 e.2.1.1.symm
  -- inputs that come from this port
  have hsrc : ∀ (k : Nat) part, s.inputs[k]? = some part → (srcAt h part).node f = a → (srcAt h part).port = port →
      ∃ rest, part = (L.dst, L.dstPort) :: rest ∧ L.dst ∈ s.nodes := by
    intro k part hk' e1 e2
    obtain ⟨n, np, rest, a', ap, e3, e4, hla, _, hn⟩ := z.srcAt_eq (List.mem_of_getElem? hk')
    rw [e4] at e1 e2
    simp only [BPort.node, BPort.port] at e1 e2
    have := hu _ hla ⟨e1, e2⟩
    rw [← this]
    exact ⟨rest, e3, hn⟩
  have hres : ∀ j, j < s.outputs.length → (resAt s h r i o j).node f = a → (resAt s h r i o j).port = port →
      ∃ (k : Nat) (part : List (Nat × Nat)), s.inputs[k]? = some part ∧ srcAt h part = resAt s h r i o j ∧ (⟨i, k, o, j⟩ : Link) ∈ r.links := by
    intro j hj e1 e2
    rcases z.resAt_eq hj with ⟨y, yp, hy, hr, hl'⟩ | ⟨k, part, hk', hr, hl'⟩
    · rw [hr] at e1
      exact absurd e1.symm (z.old hl hy)
    · exact ⟨k, part, hk', hr.symm, (hl' i k).2 ⟨rfl, rfl⟩⟩
  by_cases hm : L.dst ∈ s.nodes
  · rw [countP_none (L := h.links)]
    rotate_left
    · intro l hl' e
      simp only [Bool.and_eq_true, fromPort_iff, keeps_iff] at e
      rw [hu l hl' e.1] at e
      exact e.2.2 hm
    have hk1 : srcKind h L = some kind := by simp only [srcKind, hP]; exact hkx
    obtain ⟨t, rfl, hc⟩ : ∃ t, kind = .value t ∧ t.copyable = false := by
      rcases hkind with rfl | hh
      · obtain ⟨kind', k1, k2, _⟩ := z.valid.kinds L hL
        rw [hk1] at k1; cases k1
        exact absurd k2 (z.block_kept hm)
      · exact hh
    obtain ⟨part, hpm, hin⟩ := z.sep.enters L hL (by rw [hP.1]; exact hk) hm t hk1
    obtain ⟨k, hkp⟩ := List.mem_iff_getElem?.1 hpm
    obtain ⟨n, np, rest, a', ap, e3, e4, hla, _, hn⟩ := z.srcAt_eq hpm
    obtain ⟨ea, eap⟩ := z.sep.shared part hpm _ hla L hL (by rw [e3]; simp) hin
    simp only [] at ea eap
    have hsk : (srcAt h part).node f = a ∧ (srcAt h part).port = port := by
      rw [e4]; exact ⟨ea.trans hP.1, eap.trans hP.2⟩
    have huniq : ∀ (k' : Nat) part', s.inputs[k']? = some part' → (srcAt h part').node f = a → (srcAt h part').port = port →
        k' = k := by
      intro k' part' hk' e1 e2
      obtain ⟨rest', e5, _⟩ := hsrc k' part' hk' e1 e2
      exact flatten_nodup z.sep.inputs_nodup hk' hkp (x := (L.dst, L.dstPort)) (by rw [e5]; simp) hin
    have hfeed : Feeds h s k a port := by
      refine ⟨n, np, rest, by rw [hkp, e3], ?_, hk⟩
      have : (⟨a', ap, n, np⟩ : Link) = ⟨a, port, n, np⟩ := by rw [ea, eap, hP.1, hP.2]
      rw [← this]; exact hla
    obtain ⟨t', _, _, _, _, k1, _, k3⟩ := z.feeds_kind hfeed
    rw [hkx] at k1; cases k1
    -- the one use of the input
    have hri : r.links.countP (fromPort i k) = 1 := by
      obtain ⟨_, _, _, _, _, _, _, _, _, hli, _⟩ := z.children
      have := z.validR.outDegree i k _ hli k3
      simp only [OutDegreeOk, hc, Bool.false_eq_true, false_or] at this
      rwa [linksFrom_count z] at this
    obtain ⟨R, hR, hRP, hRu⟩ := countP_uniq hri
    simp only [fromPort_iff] at hRP hRu
    have hin0 : ∀ (k' : Nat) part', s.inputs[k']? = some part' → k' ≠ k →
        inCountAt h r i o f (fun l => fromPort a port l && keeps s l) (part', 0 + k') = 0 := by
      intro k' part' hk' hne
      refine countP_none fun l hl' e => ?_
      simp only [Bool.and_eq_true, decide_eq_true_eq, fromPort_iff, edgeLink] at e
      exact hne (huniq k' part' hk' e.2.1.1 e.2.1.2)
    by_cases ho : R.dst = o
    · have hRo : (⟨i, k, o, R.dstPort⟩ : Link) ∈ r.links := by
        rw [← hRP.1, ← hRP.2, ← ho]; exact hR
      rw [sum_zipIdx (inCountAt _ _ _ _ _ _)]
      rotate_left
      · intro k' part' hk'
        by_cases hne : k' = k
        · subst hne
          refine countP_none fun l hl' e => ?_
          simp only [Bool.and_eq_true, decide_eq_true_eq, fromPort_iff, Nat.zero_add] at e
          rw [hRu l hl' e.1.1] at e
          exact e.1.2 ho
        · exact hin0 k' part' hk' hne
      have hlt := z.o_value hRo
      obtain ⟨nj, hnj⟩ : ∃ nj, s.outputs[R.dstPort]? = some nj := ⟨_, List.getElem?_eq_getElem hlt⟩
      obtain ⟨n', np'⟩ := nj
      rw [sum_zipIdx_one _ _ 0 R.dstPort _ hnj]
      · simp only [Nat.zero_add]
        obtain ⟨t2, t1, t3⟩ := z.output_kind hnj
        have hkt : t2 = t := by
          obtain ⟨kind', k1, k2, _⟩ := z.validR.kinds _ hRo
          simp only [srcKind] at k1 k2
          rw [k3] at k1; cases k1
          rw [t3] at k2; cases k2; rfl
        subst hkt
        refine z.out_at hnj t1 hc ?_
        rcases z.resAt_eq hlt with ⟨y, yp, hy, hr, hl'⟩ | ⟨k', part', hk', hr, hl'⟩
        · exact absurd ((hl' i k).1 hRo).1.symm hy.2.1
        · obtain ⟨_, e2⟩ := (hl' i k).1 hRo
          subst e2
          rw [hkp] at hk'; cases hk'
          rw [hr]; exact hsk
      · intro j nj hj hne
        refine countP_none fun l hl' e => ?_
        simp only [Bool.and_eq_true, decide_eq_true_eq, fromPort_iff, edgeLink] at e
        have hjl := (List.getElem?_eq_some_iff.1 hj).1
        obtain ⟨k', part', hk', e1, hl2⟩ := hres j hjl (by simpa using e.2.1.1) (by simpa using e.2.1.2)
        have : k' = k := huniq k' part' hk' (by rw [e1]; simpa using e.2.1.1) (by rw [e1]; simpa using e.2.1.2)
        subst this
        have := hRu _ hl2 ⟨rfl, rfl⟩
        rw [← this] at hne
        exact hne rfl
    · have hstart := z.wired.start k R.dst R.dstPort (by rw [← hRP.1, ← hRP.2]; exact hR) ho
      rw [sum_zipIdx_one _ _ 0 k _ hkp hin0]
      rw [sum_zipIdx]
      · simp only [Nat.zero_add, Nat.add_zero]
        refine countP_one hri hR ?_ ?_
        · simp only [Bool.and_eq_true, decide_eq_true_eq, fromPort_iff, keeps_iff, edgeLink, BPort.node, BPort.port]
          rw [e4]
          exact ⟨⟨hRP, ho⟩, ⟨ea.trans hP.1, eap.trans hP.2⟩, by
            simp only [ea, hP.1]; exact hk, z.fresh_kept hstart⟩
        · intro l hl' e
          simp only [Bool.and_eq_true, decide_eq_true_eq, fromPort_iff] at e ⊢
          exact e.1.1
      · intro j nj hj
        refine countP_none fun l hl' e => ?_
        simp only [Bool.and_eq_true, decide_eq_true_eq, fromPort_iff, edgeLink] at e
        have hjl := (List.getElem?_eq_some_iff.1 hj).1
        obtain ⟨k', part', hk', e1, hl2⟩ := hres j hjl (by simpa using e.2.1.1) (by simpa using e.2.1.2)
        have : k' = k := huniq k' part' hk' (by rw [e1]; simpa using e.2.1.1) (by rw [e1]; simpa using e.2.1.2)
        subst this
        have := hRu _ hl2 ⟨rfl, rfl⟩
        rw [← this] at ho
        exact ho rfl
  · rw [countP_one (L := h.links) h1 hL]
    · rw [sum_zipIdx, sum_zipIdx]
      · intro j nj hj
        refine countP_none fun l hl' e => ?_
        simp only [Bool.and_eq_true, decide_eq_true_eq, fromPort_iff, edgeLink] at e
        have hjl := (List.getElem?_eq_some_iff.1 hj).1
        obtain ⟨k', part', hk', e1, hl2⟩ := hres j hjl (by simpa using e.2.1.1) (by simpa using e.2.1.2)
        obtain ⟨_, _, hh⟩ := hsrc k' part' hk' (by rw [e1]; simpa using e.2.1.1) (by rw [e1]; simpa using e.2.1.2)
        exact hm hh
      · intro k part hk'
        refine countP_none fun l hl' e => ?_
        simp only [Bool.and_eq_true, decide_eq_true_eq, fromPort_iff, edgeLink] at e
        obtain ⟨_, _, hh⟩ := hsrc k part hk' e.2.1.1 e.2.1.2
        exact hm hh
    · simp only [Bool.and_eq_true, fromPort_iff, keeps_iff]
      exact ⟨hP, by rw [hP.1]; exact hk, hm⟩
    · intro l hl' e
      simp only [Bool.and_eq_true, fromPort_iff] at e ⊢
      exact e.1

theorem v_outDegree (hperm : g.links.Perm (replacedLinks h r s i o f)) {x port : Nat} {kind : Kind}
    (hx : g.live x = true) (hkx : ((g.ops x).ports .outgoing)[port]? = some kind) :
    OutDegreeOk kind (linksFrom g x port).length := by
  rcases z.cases2 hx with ⟨hl, hk⟩ | ⟨a, ha, rfl⟩
  · rw [z.ops_old hl hk] at hkx
    have hd := z.valid.outDegree x port kind hl hkx
    cases kind with
    | value t =>
      simp only [OutDegreeOk] at hd ⊢
      rcases hd with hd | hd
      · exact .inl hd
      · by_cases hc : t.copyable = true
        · exact .inl hc
        · right
          rw [linksFrom_count z] at hd ⊢
          exact z.out_old hperm hl hk hkx (.inr ⟨t, rfl, by simpa using hc⟩) hd
    | controlFlow =>
      simp only [OutDegreeOk] at hd ⊢
      rw [linksFrom_count z] at hd ⊢
      exact z.out_old hperm hl hk hkx (.inl rfl) hd
    | const t => trivial
    | function pf => trivial
    | stateOrder => trivial
  · rw [z.ops_new ha] at hkx
    have hal : r.live a = true := by
      obtain ⟨q, hq⟩ := z.has_parent ha
      exact (z.treeR.parent_live _ _ hq).1
    have hd := z.validR.outDegree a port kind hal hkx
    cases kind with
    | value t =>
      simp only [OutDegreeOk] at hd ⊢
      rcases hd with hd | hd
      · exact .inl hd
      · by_cases hc : t.copyable = true
        · exact .inl hc
        · right
          rw [linksFrom_count z] at hd ⊢
          exact z.out_new hperm ha hkx (by rintro t' e; cases e; simpa using hc) (by simp) hd
    | controlFlow =>
      simp only [OutDegreeOk] at hd ⊢
      rw [linksFrom_count z] at hd ⊢
      exact z.out_new hperm ha hkx (by rintro t' e; cases e) (by simp) hd
    | const t => trivial
    | function pf => trivial
    | stateOrder => trivial

/-- All the rules. -/
theorem valid_g (hperm : g.links.Perm (replacedLinks h r s i o f)) (hC : C'.types = C.types) (hD : C'.defs = C.defs)
    (hd : ∀ n d, n ∈ s.nodes → DeclsAt h n d → DeclsAt r i d ∨ DeclsAt r i [])
    (hconst : ∀ x t, Fresh r i o x → r.ops x = .const t → C.constOk (f x) = true) : Valid C g where
  tags x hx := by
    rcases z.cases2 hx with ⟨hl, hk⟩ | ⟨a, ha, rfl⟩
    · rw [z.ops_old hl hk]; exact z.valid.tags x hl
    · rw [z.ops_new ha]
      obtain ⟨q, hq⟩ := z.has_parent ha
      exact z.validR.tags a (z.treeR.parent_live _ _ hq).1
  ports x hx := by
    rcases z.cases2 hx with ⟨hl, hk⟩ | ⟨a, ha, rfl⟩
    · obtain ⟨e1, e2, e3, _⟩ := z.replaced.host x hl hk
      rw [e1, e2, e3]; exact z.valid.ports x hl
    · obtain ⟨e1, e2, e3, _⟩ := z.replaced.node a ha
      rw [e1, e2, e3]
      obtain ⟨q, hq⟩ := z.has_parent ha
      exact z.validR.ports a (z.treeR.parent_live _ _ hq).1
  contains x q hp := z.v_contains hp
  children x hx := z.v_children hx
  entrypoint := z.v_entrypoint
  blocks l hl q sg hs h1 h2 := z.v_blocks hl hs h1 h2
  acyclic q hq hb x := z.v_acyclic hq hb x
  constants x t hx hop := by
    rcases z.cases2 hx with ⟨hl, hk⟩ | ⟨a, ha, rfl⟩
    · rw [z.ops_old hl hk] at hop; exact z.valid.constants x t hl hop
    · rw [z.ops_new ha] at hop; exact hconst a t ha hop
  inDegree x port kind hx hk := z.v_inDegree hperm hx hk
  outDegree x port kind hx hk := z.v_outDegree hperm hx hk
  kinds l hl := z.v_kinds hl
  types x d hx hdx := z.v_types hC hD hd hx hdx
  exports a b nm sa sb da db h1 h2 hne := z.valid.exports a b nm sa sb da db (z.v_exports h1) (z.v_exports h2) hne

end SwapAt

end Verif.Patch
