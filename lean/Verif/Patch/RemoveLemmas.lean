import Verif.Patch.Remove
import Verif.Patch.LinkLemmas
import Verif.Patch.InlineDfgSim

/-!
# Removing a constant that is not used
-/
namespace Verif.Patch

open Verif.Graph Verif.Ops Verif.Passes Verif.Validate Verif.Dataflow

variable {Meta W E : Type} {C : Validate.Context} {h g : Hugr Ops.Op Meta}

/-- `w` is a constant or loads one, does not pass it on, and `g` is without `w`. -/
structure Unused (C : Validate.Context) (h g : Hugr Ops.Op Meta) (w P : Nat) : Prop where
  tree : IsTree h
  valid : Valid C h
  parent : h.hier.parent w = some P
  data : (∃ t, h.ops w = .const t) ∨ ∃ t, h.ops w = .loadConstant t
  quiet : ∀ l ∈ h.links, l.src = w → srcKind h l = some .stateOrder
  removed : Passes.Removed h [w] g
  gone : ¬ IsDefn g w

namespace Unused

variable {w P : Nat} (z : Unused C h g w P)
include z

theorem live_iff {m : Nat} : g.live m = true ↔ h.live m = true ∧ m ≠ w := by
  rw [z.removed.live]; simp

theorem ops {m : Nat} (hm : m ≠ w) : g.ops m = h.ops m := z.removed.ops m (by simpa using hm)

theorem kids {m : Nat} (hm : m ≠ w) : g.children m = (h.children m).filter fun c => c ≠ w := by
  have := z.removed.children m
  rw [if_neg (by simpa using hm)] at this
  change g.hier.children m = _
  rw [this]
  apply List.filter_congr
  intro x _
  simp

theorem mem_kids {m n : Nat} (hm : m ≠ w) : n ∈ g.children m ↔ n ∈ h.children m ∧ n ≠ w := by
  rw [z.kids hm, List.mem_filter]; simp

theorem mem_links {l : Link} : l ∈ g.links ↔ l ∈ h.links ∧ l.src ≠ w ∧ l.dst ≠ w := by
  rw [z.removed.links, List.mem_filter]; simp

theorem live_w : h.live w = true := (z.tree.parent_live _ _ z.parent).1

theorem child_w {p : Nat} : w ∈ h.children p ↔ p = P := by
  constructor
  · intro hc
    have : h.hier.parent w = some p := (z.tree.child_iff _ _).1 hc
    rw [z.parent] at this; cases this; rfl
  · rintro rfl; exact (z.tree.child_iff _ _).2 z.parent

theorem noKids : h.children w = [] := by
  have hc := z.valid.children w z.live_w
  unfold ChildrenOk at hc
  rcases z.data with ⟨t, e⟩ | ⟨t, e⟩ <;> rw [e] at hc <;> exact hc

theorem notParent {c : Nat} : h.hier.parent c ≠ some w := by
  intro hp
  have : c ∈ h.children w := (z.tree.child_iff _ _).2 hp
  rw [z.noKids] at this; cases this

theorem ne : P ≠ w := fun e => z.notParent (e ▸ z.parent)

theorem kids_ne {p : Nat} (hp : p ≠ P) (hw : p ≠ w) : g.children p = h.children p := by
  rw [z.kids hw, List.filter_eq_self]
  intro x hx
  simp only [decide_eq_true_eq]
  rintro rfl
  exact hp (z.child_w.1 hx)

theorem up {m p : Nat} : g.hier.parent m = some p ↔ h.hier.parent m = some p ∧ m ≠ w := by
  rw [z.removed.parent]
  constructor
  · rintro ⟨h1, h2, _⟩; exact ⟨h1, by simpa using h2⟩
  · rintro ⟨h1, h2⟩
    exact ⟨h1, by simpa using h2, by simpa using fun e : p = w => z.notParent (e ▸ h1)⟩

theorem up_ne {m : Nat} (hm : m ≠ w) : g.hier.parent m = h.hier.parent m := by
  cases e : h.hier.parent m with
  | some p => exact z.up.2 ⟨e, hm⟩
  | none =>
    cases e' : g.hier.parent m with
    | none => rfl
    | some p => rw [(z.up.1 e').1] at e; cases e

theorem above {m q : Nat} (ha : Above h.hier.parent m q) (hm : m ≠ w) : Above g.hier.parent m q := by
  induction ha with
  | refl => exact .refl _
  | step hp _ ih => exact .step (z.up.2 ⟨hp, hm⟩) (ih fun e => z.notParent (e ▸ hp))

/-- Links into `w`. -/
theorem into {l : Link} (hl : l ∈ h.links) (hd : l.dst = w) :
    (∃ t, h.ops w = .loadConstant t) ∧
    ((∃ t, srcKind h l = some (.const t)) ∨ srcKind h l = some .stateOrder) := by
  obtain ⟨kind, h1, h2, _⟩ := z.valid.kinds l hl
  rw [hd] at h2
  have hm := List.mem_of_getElem? h2
  rcases z.data with ⟨t, e⟩ | ⟨t, e⟩ <;> rw [e] at hm <;> simp [Op.ports] at hm
  refine ⟨⟨t, e⟩, ?_⟩
  rw [h1]
  rcases hm with rfl | rfl
  · exact .inl ⟨_, rfl⟩
  · exact .inr rfl

/-- Links out of `w`. -/
theorem out {l : Link} (hl : l ∈ h.links) (hs : l.src = w) : ∃ t, h.ops w = .loadConstant t := by
  have hk := z.quiet l hl hs
  unfold srcKind at hk
  rw [hs] at hk
  have hm := List.mem_of_getElem? hk
  rcases z.data with ⟨t, e⟩ | ⟨t, e⟩
  · rw [e] at hm; simp [Op.ports] at hm
  · exact ⟨t, e⟩

/-- If there is a link at `w` then it is in a dataflow graph. -/
theorem in_body (hd : ∃ t, h.ops w = .loadConstant t) : (body (h.ops P)).isSome = true := by
  obtain ⟨t, e⟩ := hd
  have hc := z.valid.contains _ _ z.parent
  rw [e] at hc
  cases ho : h.ops P <;> rw [ho] at hc <;> simp [MayContain, body] at hc ⊢

theorem links_cfg {l : Link} (hl : l ∈ h.links) {p : Nat} {sig : Types.Signature} (hp : h.ops p = .cfg sig)
    (h1 : l.src ∈ h.children p) (h2 : l.dst ∈ h.children p) : l.src ≠ w ∧ l.dst ≠ w := by
  constructor
  · intro e
    rw [e, z.child_w] at h1
    have := z.in_body (z.out hl e)
    rw [← h1, hp] at this; cases this
  · intro e
    rw [e, z.child_w] at h2
    have := z.in_body (z.into hl e).1
    rw [← h2, hp] at this; cases this

theorem region {p x y : Nat} (hp : p ≠ w) (he : RegionEdge g p x y) : RegionEdge h p x y := by
  obtain ⟨h1, h2, l, hl, e1, e2⟩ := he
  exact ⟨((z.mem_kids hp).1 h1).1, ((z.mem_kids hp).1 h2).1, l, (z.mem_links.1 hl).1, e1, e2⟩

theorem region_cfg {p x y : Nat} {sig : Types.Signature} (hop : h.ops p = .cfg sig) :
    RegionEdge g p x y ↔ RegionEdge h p x y := by
  have hp : p ≠ w := by
    rintro rfl
    rcases z.data with ⟨t, e⟩ | ⟨t, e⟩ <;> rw [e] at hop <;> cases hop
  refine ⟨z.region hp, ?_⟩
  rintro ⟨h1, h2, l, hl, rfl, rfl⟩
  obtain ⟨n1, n2⟩ := z.links_cfg hl hop h1 h2
  exact ⟨(z.mem_kids hp).2 ⟨h1, n1⟩, (z.mem_kids hp).2 ⟨h2, n2⟩, l, z.mem_links.2 ⟨hl, n1, n2⟩, rfl, rfl⟩

theorem op_ne {m : Nat} (h1 : ∀ t, h.ops m ≠ .const t) (h2 : ∀ t, h.ops m ≠ .loadConstant t) : m ≠ w := by
  rintro rfl
  rcases z.data with ⟨t, e⟩ | ⟨t, e⟩
  · exact h1 t e
  · exact h2 t e

/-! ## The rules -/

theorem head_ne {p b : Nat} {r : List Nat} (hp : p ≠ w) (hb : b ≠ w) (hc : h.children p = b :: r) :
    g.children p = b :: r.filter fun c => c ≠ w := by
  rw [z.kids hp, hc, List.filter_cons_of_pos (by simpa using hb)]

theorem v_children {n : Nat} (hn : h.live n = true) (hw : n ≠ w) : ChildrenOk g n := by
  have hc := z.valid.children n hn
  by_cases hP : n = P
  · subst hP
    have hcon := z.valid.contains _ _ z.parent
    have key : ∀ {i o : List Types.Ty}, (∃ inp out rest, h.children n = inp :: out :: rest ∧
        h.ops inp = .input i ∧ h.ops out = .output o ∧ ∀ c ∈ rest, ¬ IsIO (h.ops c)) →
        ∃ inp out rest, g.children n = inp :: out :: rest ∧
        g.ops inp = .input i ∧ g.ops out = .output o ∧ ∀ c ∈ rest, ¬ IsIO (g.ops c) := by
      rintro i o ⟨inp, out, rest, h1, h2, h3, h4⟩
      have n1 : inp ≠ w := z.op_ne (by simp [h2]) (by simp [h2])
      have n2 : out ≠ w := z.op_ne (by simp [h3]) (by simp [h3])
      refine ⟨inp, out, rest.filter fun c => c ≠ w, ?_, by rw [z.ops n1]; exact h2, by rw [z.ops n2]; exact h3, ?_⟩
      · rw [z.head_ne hw n1 h1, List.filter_cons_of_pos (by simpa using n2)]
      · intro c hc
        rw [List.mem_filter, decide_eq_true_eq] at hc
        rw [z.ops hc.2]; exact h4 c hc.1
    unfold ChildrenOk at hc ⊢
    rw [z.ops hw]
    cases ho : h.ops n with
    | module => trivial
    | conditional a b c =>
      rw [ho] at hcon
      rcases z.data with ⟨t, e⟩ | ⟨t, e⟩ <;> rw [e] at hcon <;> exact hcon.elim
    | cfg sig =>
      rw [ho] at hc
      obtain ⟨entry, exit, rest, o, r, h1, h2, h3, h4⟩ := hc
      have n1 : entry ≠ w := z.op_ne (by simp [h2]) (by simp [h2])
      have n2 : exit ≠ w := z.op_ne (by simp [h3]) (by simp [h3])
      refine ⟨entry, exit, rest.filter fun c => c ≠ w, o, r, ?_, by rw [z.ops n1]; exact h2,
        by rw [z.ops n2]; exact h3, ?_⟩
      · rw [z.head_ne hw n1 h1, List.filter_cons_of_pos (by simpa using n2)]
      · intro c hc
        rw [List.mem_filter, decide_eq_true_eq] at hc
        rw [z.ops hc.2]; exact h4 c hc.1
    | funcDefn a b => rw [ho] at hc; exact key hc
    | dfg a => rw [ho] at hc; exact key hc
    | case a => rw [ho] at hc; exact key hc
    | tailLoop a b c => rw [ho] at hc; exact key hc
    | dataflowBlock a b c => rw [ho] at hc; exact key hc
    | _ =>
      rw [ho] at hcon
      simp [MayContain, body] at hcon
  · have hk : ∀ c ∈ h.children n, c ≠ w := fun c hc e => hP (z.child_w.1 (e ▸ hc))
    have hch := z.kids_ne hP hw
    unfold ChildrenOk at hc ⊢
    rw [z.ops hw, hch]
    have key : ∀ {i o : List Types.Ty}, (∃ inp out rest, h.children n = inp :: out :: rest ∧
        h.ops inp = .input i ∧ h.ops out = .output o ∧ ∀ c ∈ rest, ¬ IsIO (h.ops c)) →
        ∃ inp out rest, h.children n = inp :: out :: rest ∧
        g.ops inp = .input i ∧ g.ops out = .output o ∧ ∀ c ∈ rest, ¬ IsIO (g.ops c) := by
      rintro i o ⟨inp, out, rest, h1, h2, h3, h4⟩
      refine ⟨inp, out, rest, h1, ?_, ?_, ?_⟩
      · rw [z.ops (hk inp (by rw [h1]; simp))]; exact h2
      · rw [z.ops (hk out (by rw [h1]; simp))]; exact h3
      · intro c hc
        rw [z.ops (hk c (by rw [h1]; simp [hc]))]; exact h4 c hc
    cases ho : h.ops n with
    | module => trivial
    | conditional a b c =>
      rw [ho] at hc
      refine ⟨hc.1, ?_⟩
      rw [← hc.2]
      exact List.map_congr_left fun c hc => z.ops (hk c hc)
    | cfg sig =>
      rw [ho] at hc
      obtain ⟨entry, exit, rest, o, r, h1, h2, h3, h4⟩ := hc
      refine ⟨entry, exit, rest, o, r, h1, ?_, ?_, ?_⟩
      · rw [z.ops (hk entry (by rw [h1]; simp))]; exact h2
      · rw [z.ops (hk exit (by rw [h1]; simp))]; exact h3
      · intro c hc
        rw [z.ops (hk c (by rw [h1]; simp [hc]))]; exact h4 c hc
    | funcDefn a b => rw [ho] at hc; exact key hc
    | dfg a => rw [ho] at hc; exact key hc
    | case a => rw [ho] at hc; exact key hc
    | tailLoop a b c => rw [ho] at hc; exact key hc
    | dataflowBlock a b c => rw [ho] at hc; exact key hc
    | _ => rw [ho] at hc; exact hc

theorem v_decls {n : Nat} {d : List Types.Term} (hd : DeclsAt g n d) : DeclsAt h n d := by
  induction hd with
  | root => rw [z.removed.rest.2.2.2.2.1]; exact .root
  | inside hp ho =>
    have := (z.up.1 hp).1
    exact .inside this (by rw [← z.ops fun e => z.notParent (e ▸ this)]; exact ho)
  | inherited hp ho _ ih =>
    have := (z.up.1 hp).1
    exact .inherited this (by rw [← z.ops fun e => z.notParent (e ▸ this)]; exact ho) ih

theorem srcKind_eq {l : Link} (hl : l.src ≠ w) : srcKind g l = srcKind h l := by
  unfold srcKind; rw [z.ops hl]

theorem v_kinds {l : Link} (hl : l ∈ g.links) : ∃ kind, srcKind g l = some kind ∧
    ((g.ops l.dst).ports .incoming)[l.dstPort]? = some kind ∧ EdgeOk g l kind := by
  obtain ⟨hl, hs, hd⟩ := z.mem_links.1 hl
  obtain ⟨kind, h1, h2, p, hp, hor⟩ := z.valid.kinds l hl
  refine ⟨kind, by rw [z.srcKind_eq hs]; exact h1, by rw [z.ops hd]; exact h2, p, z.up.2 ⟨hp, hs⟩, ?_⟩
  rcases hor with h3 | ⟨q, a, hq, hqa, h3⟩
  · exact .inl (z.up.2 ⟨h3, hd⟩)
  · have hqw : q ≠ w := fun e => z.notParent (e ▸ hq)
    have haw : a ≠ w := by
      rintro rfl
      rcases above_cases hqa with e | ⟨r, hr, hra⟩
      · exact hqw e
      · have key : ∀ {x y}, Above h.hier.parent x y → y = a → x = a := by
          intro x y hxy
          induction hxy with
          | refl => exact id
          | step hp _ ih => intro e; exact absurd (ih e ▸ hp) z.notParent
        exact hqw (key hqa rfl)
    refine .inr ⟨q, a, z.up.2 ⟨hq, hd⟩, z.above hqa hqw, ?_⟩
    rcases h3 with ⟨h3, h4⟩ | ⟨h3, ⟨h4, o, ho, e1, e2, h5⟩ | ⟨G, sig, entry, rest, n1, p1, p2, p3, p4, p5⟩⟩
    · exact .inl ⟨h3, z.up.2 ⟨h4, haw⟩⟩
    · refine .inr ⟨h3, .inl ⟨z.up.2 ⟨h4, haw⟩, o, z.mem_links.2 ⟨ho, e1 ▸ hs, e2 ▸ haw⟩, e1, e2, ?_⟩⟩
      rw [z.srcKind_eq (e1 ▸ hs)]; exact h5
    · have hpw : p ≠ w := fun e => z.notParent (e ▸ hp)
      have hG : G ≠ w := fun e => z.notParent (e ▸ p1)
      have hen : entry ≠ w := by
        have hc := z.valid.children G (z.tree.parent_live _ _ p1).2
        unfold ChildrenOk at hc
        rw [p3] at hc
        obtain ⟨e', _, _, _, _, q1, q2, _⟩ := hc
        rw [p4] at q1; cases q1
        exact z.op_ne (by simp [q2]) (by simp [q2])
      refine .inr ⟨h3, .inr ⟨G, sig, entry, _, n1, z.up.2 ⟨p1, hpw⟩, z.up.2 ⟨p2, haw⟩, by rw [z.ops hG]; exact p3,
        z.head_ne hG hen p4, ?_⟩⟩
      have : RegionEdge g G = RegionEdge h G := by
        funext x y; exact propext (z.region_cfg p3)
      rw [this]; exact p5

theorem valid_g : Valid C g := by
  obtain ⟨_, hins, houts, _, hroot, hentry⟩ := z.removed.rest
  have hen : h.entrypoint ≠ w := z.op_ne (fun t e => by have := z.valid.entrypoint; rw [e] at this; cases this)
    (fun t e => by have := z.valid.entrypoint; rw [e] at this; cases this)
  have hrw : h.moduleRoot ≠ w := fun e => by have := z.parent; rw [← e, z.tree.root_top] at this; cases this
  refine ⟨?_, ?_, ?_, ?_, ?_, ?_, ?_, ?_, ?_, ?_, fun l hl => z.v_kinds hl, ?_, ?_⟩
  · intro n hn
    obtain ⟨h1, h2⟩ := z.live_iff.1 hn
    rw [z.ops h2]; exact z.valid.tags n h1
  · intro n hn
    obtain ⟨h1, h2⟩ := z.live_iff.1 hn
    rw [z.ops h2, hins, houts]; exact z.valid.ports n h1
  · intro n p hp
    obtain ⟨h1, h2⟩ := z.up.1 hp
    rw [z.ops h2, z.ops fun e => z.notParent (e ▸ h1)]; exact z.valid.contains n p h1
  · intro n hn
    obtain ⟨h1, h2⟩ := z.live_iff.1 hn
    exact z.v_children h1 h2
  · rw [hentry, z.ops hen]; exact z.valid.entrypoint
  · intro l hl p sig hp hs hd
    obtain ⟨h1, h2, h3⟩ := z.mem_links.1 hl
    have hpw : p ≠ w := by
      rintro rfl
      have := z.removed.children p
      rw [if_pos (by simp)] at this
      change l.src ∈ g.hier.children p at hs
      rw [this] at hs; cases hs
    obtain ⟨ins, other, rows, row, q1, q2, q3⟩ := z.valid.blocks l h1 p sig (by rw [← z.ops hpw]; exact hp)
      ((z.mem_kids hpw).1 hs).1 ((z.mem_kids hpw).1 hd).1
    exact ⟨ins, other, rows, row, by rw [z.ops h2]; exact q1, q2, by rw [z.ops h3]; exact q3⟩
  · intro p hp hb n hn
    obtain ⟨h1, h2⟩ := z.live_iff.1 hp
    rw [z.ops h2] at hb
    exact z.valid.acyclic p h1 hb n (Relation.TransGen.mono (fun _ _ he => z.region h2 he) n n hn)
  · intro n t hn ho
    obtain ⟨h1, h2⟩ := z.live_iff.1 hn
    rw [z.ops h2] at ho
    exact z.valid.constants n t h1 ho
  · intro n port kind hn hk
    obtain ⟨h1, h2⟩ := z.live_iff.1 hn
    rw [z.ops h2] at hk
    have hd := z.valid.inDegree n port kind h1 hk
    by_cases ho : kind = .stateOrder
    · subst ho; trivial
    · have : linksTo g n port = linksTo h n port := by
        unfold linksTo
        rw [z.removed.links, List.filter_filter]
        refine List.filter_congr fun l hl => ?_
        by_cases hc : l.dst = n ∧ l.dstPort = port
        · have : l.src ≠ w := by
            intro e
            obtain ⟨kind', q1, q2, _⟩ := z.valid.kinds l hl
            rw [hc.1, hc.2, hk] at q2; cases q2
            rw [z.quiet l hl e] at q1; cases q1; exact ho rfl
          simp [hc.1, hc.2, this, h2]
        · have : (decide (l.dst = n) && decide (l.dstPort = port)) = false := by
            simpa using hc
          simp only [this, Bool.false_and]
      rw [this]; exact hd
  · intro n port kind hn hk
    obtain ⟨h1, h2⟩ := z.live_iff.1 hn
    rw [z.ops h2] at hk
    have hd := z.valid.outDegree n port kind h1 hk
    have key : (∀ t, kind ≠ .const t) → kind ≠ .stateOrder → linksFrom g n port = linksFrom h n port := by
      intro k1 k2
      unfold linksFrom
      rw [z.removed.links, List.filter_filter]
      refine List.filter_congr fun l hl => ?_
      by_cases hc : l.src = n ∧ l.srcPort = port
      · have : l.dst ≠ w := by
          intro e
          have q := (z.into hl e).2
          unfold srcKind at q
          rw [hc.1, hc.2, hk] at q
          rcases q with ⟨t, q⟩ | q <;> cases q
          · exact k1 t rfl
          · exact k2 rfl
        simp [hc.1, hc.2, this, h2]
      · have : (decide (l.src = n) && decide (l.srcPort = port)) = false := by
          simpa using hc
        simp only [this, Bool.false_and]
    cases kind with
    | const t => trivial
    | stateOrder => trivial
    | function _ => trivial
    | value t => rw [key (by simp) (by simp)]; exact hd
    | controlFlow => rw [key (by simp) (by simp)]; exact hd
  · intro n decls hn hd
    obtain ⟨h1, h2⟩ := z.live_iff.1 hn
    rw [z.ops h2]; exact z.valid.types n decls h1 (z.v_decls hd)
  · have hx : ∀ a name sig d, Exports C g a name sig d → Exports C h a name sig d := by
      rintro a name sig d ⟨h1, h2, h3⟩
      rw [hroot, z.mem_kids hrw] at h1
      rw [z.ops h1.2] at h3
      exact ⟨h1.1, h2, h3⟩
    intro a b name siga sigb da db ha hb
    exact z.valid.exports a b name siga sigb da db (hx _ _ _ _ ha) (hx _ _ _ _ hb)

theorem tree_g : IsTree g := by
  refine removed_tree z.tree z.removed ?_ ?_ ?_
  · have : h.entrypoint ≠ w := z.op_ne (fun t e => by have := z.valid.entrypoint; rw [e] at this; cases this)
      (fun t e => by have := z.valid.entrypoint; rw [e] at this; cases this)
    simpa using this
  · have hrw : h.moduleRoot ≠ w := fun e => by have := z.parent; rw [← e, z.tree.root_top] at this; cases this
    simpa using hrw
  · intro c p hp _ hm
    rw [List.mem_singleton] at hm
    exact absurd (hm ▸ hp) z.notParent

/-! ## Results -/

theorem matters_kind {l : Link} (hl : l ∈ h.links) (hm : Matters h l) : srcKind h l ≠ some .stateOrder := by
  obtain ⟨kind, h1, h2, _⟩ := z.valid.kinds l hl
  rw [h1]
  rintro ⟨⟩
  rcases hm with hm | hm | ⟨a, b, c, hm, _⟩
  · obtain ⟨t, ht⟩ := in_kind (z.valid.tags _ (link_live z.tree z.valid hl).2) hm
    rw [ht] at h2; cases h2
  · rcases static_kind hm with ⟨sig, hk⟩ | ⟨t, _, hk⟩ <;> rw [hk] at h2 <;> cases h2
  · unfold srcKind at h1
    rw [hm] at h1
    have := List.mem_of_getElem? h1
    simp [Op.ports] at this

theorem extra : Extra g h w P P 0 := by
  have dead : ∀ l ∈ h.links, Matters h l → l.src ≠ w := fun l hl hm e => z.matters_kind hl hm (z.quiet l hl e)
  have nd : ¬ IsDefn h w := by
    rintro ⟨a, b, hd⟩
    rcases z.data with ⟨t, e⟩ | ⟨t, e⟩ <;> rw [e] at hd <;> cases hd
  refine ⟨fun n hn => (z.ops hn).symm, ?_, z.gone, fun p h1 h2 => (z.kids_ne h1 h2).symm, ?_, ?_, ?_, ?_, ?_, ?_, ?_, z.ne,
    z.ne, ?_, ?_, ?_, ?_, ?_⟩
  · intro f
    by_cases hf : f = w
    · subst hf; exact ⟨fun h => absurd h z.gone, fun h => absurd h nd⟩
    · unfold IsDefn; rw [z.ops hf]
  · intro n
    rw [z.mem_kids z.ne]
    constructor
    · intro hn
      by_cases e : n = w
      · exact .inr e
      · exact .inl ⟨hn, e⟩
    · rintro (h1 | rfl)
      · exact h1.1
      · exact z.child_w.2 rfl
  · intro hb i o
    obtain ⟨i', o', ti, tj, hio, hi, ho⟩ := body_children z.valid (z.tree.parent_live _ _ z.parent).2 hb
    obtain ⟨rest, hio⟩ := hio
    have n1 : i' ≠ w := z.op_ne (by simp [hi]) (by simp [hi])
    have n2 : o' ≠ w := z.op_ne (by simp [ho]) (by simp [ho])
    unfold HasIO
    rw [z.head_ne z.ne n1 hio, List.filter_cons_of_pos (by simpa using n2), hio]
    constructor
    · rintro ⟨r, e⟩; cases e; exact ⟨_, rfl⟩
    · rintro ⟨r, e⟩; cases e; exact ⟨_, rfl⟩
  · intro sig hs b
    have hc := z.valid.children P (z.tree.parent_live _ _ z.parent).2
    unfold ChildrenOk at hc
    rw [hs] at hc
    obtain ⟨e', _, _, _, _, q1, q2, _⟩ := hc
    have n1 : e' ≠ w := z.op_ne (by simp [q2]) (by simp [q2])
    rw [z.head_ne z.ne n1 q1, q1]
    constructor
    · rintro ⟨r, e⟩; cases e; exact ⟨_, rfl⟩
    · rintro ⟨r, e⟩; cases e; exact ⟨_, rfl⟩
  · intro p hc
    by_cases hp : p = w
    · subst hp
      have := z.removed.children p
      rw [if_pos (by simp)] at this
      change p ∈ g.hier.children p at hc
      rw [this] at hc; cases hc
    · exact ((z.mem_kids hp).1 hc).2 rfl
  · intro p n h1 h2
    have q1 : h.hier.parent n = some P := (z.tree.child_iff _ _).1 h1
    have q2 : h.hier.parent n = some p := (z.tree.child_iff _ _).1 h2
    rw [q1] at q2; cases q2; rfl
  · intro x y t hop
    have hcon := z.valid.contains _ _ z.parent
    rw [hop] at hcon
    rcases z.data with ⟨t, e⟩ | ⟨t, e⟩ <;> rw [e] at hcon <;> exact hcon.elim
  · intro n x y t hop hc
    have hcon := z.valid.contains _ _ ((z.tree.child_iff _ _).1 hc)
    rw [hop] at hcon
    cases ho : h.ops P <;> rw [ho] at hcon <;> first | exact hcon.elim | rfl
  · intro l hl; exact (z.mem_links.1 hl).2
  · intro l hl _ hd hs; exact z.mem_links.2 ⟨hl, hs, hd⟩
  · intro l hl hm hs; exact absurd hs (dead l hl hm)
  · rintro l hl b hb rfl x y t hop hd
    have := (z.into hl hd).2
    unfold srcKind at this
    rw [hop] at this
    rcases this with ⟨t, this⟩ | this <;> have := List.mem_of_getElem? this <;> simp [Op.ports] at this
  · intro l hl _; exact .inl (z.mem_links.1 hl).1

theorem passes (S : Sem W E) : Passes g h S w P P 0 := by
  have dead : ∀ l ∈ h.links, Matters h l → l.src ≠ w := fun l hl hm e => z.matters_kind hl hm (z.quiet l hl e)
  refine ⟨?_, fun σ ins outs _ _ l hl hm e => absurd e (dead l hl hm)⟩
  intro σ i o _ _
  rcases z.data with ⟨t, e⟩ | ⟨t, e⟩
  · refine ⟨[], [], by rw [e]; rfl, fun σ' _ => ⟨by rw [e]; rfl, by simp⟩, fun ρ => .const e,
      fun l hl hm e => absurd e (dead l hl hm)⟩
  · have hd := z.valid.inDegree w 0 (.const t) z.live_w (by rw [e]; rfl)
    obtain ⟨l, hl⟩ := List.length_eq_one_iff.1 hd
    have hm : l ∈ linksTo h w 0 := by rw [hl]; simp
    unfold linksTo at hm
    rw [List.mem_filter, Bool.and_eq_true, decide_eq_true_iff, decide_eq_true_iff] at hm
    obtain ⟨m1, m2, m3⟩ := hm
    obtain ⟨kind, k1, k2, _⟩ := z.valid.kinds l m1
    rw [m2, m3, e] at k2
    cases k2
    have hs : ∃ t', h.ops l.src = .const t' := by
      unfold srcKind at k1
      have := List.mem_of_getElem? k1
      cases ho : h.ops l.src <;> rw [ho] at this <;> simp [Op.ports] at this
      exact ⟨_, rfl⟩
    obtain ⟨t', hs⟩ := hs
    exact ⟨[], [S.value (S.const l.src)], by rw [e]; rfl, fun σ' _ => ⟨by rw [e]; rfl, by simp⟩,
      fun ρ => .leaf (.loadConstant e m1 m2 m3 hs), fun l hl hm e => absurd e (dead l hl hm)⟩

theorem returns (S : Sem W E) {f : Nat} {args outs : List (Val W)} :
    Returns g S f args outs ↔ Returns h S f args outs := extra_returns z.extra (z.passes S)

end Unused

/-- Removing a node gives the Hugr without it. -/
theorem removeNode_spec (ht : IsTree h) {n : Nat} (hn : h.live n = true) (he : n ≠ h.entrypoint) :
    ∃ g, h.removeNode opsInfo.toOpInfo n = some g ∧ Passes.Removed h [n] g ∧ ¬ IsDefn g n := by
  obtain ⟨g, h1, h2⟩ := removeNodes_spec [n] h ⟨ht.child_iff, ht.child_once⟩ (by simp) (by simpa using hn)
    (by simpa using fun e : h.entrypoint = n => he e.symm)
  unfold removeNodes at h1
  cases e : h.removeNode opsInfo.toOpInfo n with
  | none => rw [e] at h1; cases h1
  | some g' =>
    rw [e] at h1
    have : g' = g := by simpa [removeNodes] using h1
    subst this
    refine ⟨g', rfl, h2, ?_⟩
    unfold Hugr.removeNode at e
    split at e
    · cases e
      rintro ⟨a, b, hd⟩
      simp only [upd_same] at hd
      cases hd
    · cases e

/-- What is left without one node. -/
theorem removed_without (ht : IsTree h) (hv : Valid C h) {n : Nat} (hr : Passes.Removed h [n] g) :
    WithoutNodes h (fun m => m = n) g := by
  have hl : ∀ m, g.live m = true ↔ h.live m = true ∧ m ≠ n := fun m => by rw [hr.live]; simp
  obtain ⟨_, hins, houts, hmeta, hroot, hentry⟩ := hr.rest
  refine ⟨hl, ?_, ?_, ?_, ?_, ?_, ?_, hroot, hentry⟩
  · intro m p hm
    rw [hr.parent]
    simp [((hl m).1 hm).2]
  · intro m hm
    rw [hr.children, if_neg (by simpa using ((hl m).1 hm).2)]
    refine List.filter_congr fun c hc => ?_
    have : h.live c = true := (ht.parent_live _ _ ((ht.child_iff _ _).1 hc)).1
    by_cases e : c = n
    · subst e
      have : g.live c = false := by
        cases hg : g.live c with
        | false => rfl
        | true => exact absurd rfl ((hl c).1 hg).2
      simp [this]
    · simp [e, (hl c).2 ⟨this, e⟩]
  · intro m hm; exact hr.ops m (by simpa using ((hl m).1 hm).2)
  · intro m _; exact ⟨by rw [hins], by rw [houts]⟩
  · intro m _; rw [hmeta]
  · rw [hr.links]
    refine List.filter_congr fun l hm => ?_
    obtain ⟨h1, h2⟩ := link_live ht hv hm
    have hd : ∀ m, h.live m = true → (g.live m = true ↔ ¬ m ∈ [n]) := fun m hm => by rw [hr.live]; simp [hm]
    rw [Bool.eq_iff_iff, decide_eq_true_iff, Bool.and_eq_true, hd _ h1, hd _ h2]

end Verif.Patch
