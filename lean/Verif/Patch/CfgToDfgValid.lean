import Verif.Patch.CfgToDfgOutput
import Verif.Patch.IdentityLemmas

/-!
# A control-flow graph that becomes a dataflow graph: the result is valid
-/
namespace Verif.Patch

open Verif.Graph Verif.Ops Verif.Passes Verif.Validate Verif.Dataflow

variable {Meta W S : Type} {C : Validate.Context} {h g : Hugr Ops.Op Meta}

/-- What is in a valid tuple is valid. -/
theorem tuple_valid {env : Types.Env} {D : List Types.Term} {row : List Types.Ty}
    (hv : (sumOf [row]).validate env D = true) : ∀ t ∈ row, t.validate env D = true := by
  cases row with
  | nil => simp
  | cons t ts =>
    have e : sumOf [t :: ts] = .general [rvRow (t :: ts)] := by
      unfold sumOf Types.Ty.newSum
      rw [if_neg]
      · rfl
      · simp [rvRow]
    rw [e, Types.Ty.general, Types.Ty.validate] at hv
    simp only [Types.validateRows, Bool.and_true] at hv
    have key : ∀ (r : List Types.Ty), Types.validateRow env D (rvRow r) = true → ∀ t ∈ r, t.validate env D = true := by
      intro r
      induction r with
      | nil => simp
      | cons a as ih =>
        intro hr
        change (Types.RTy.validate env D (.ty a) && Types.validateRow env D (rvRow as)) = true at hr
        rw [Bool.and_eq_true] at hr
        intro t ht
        rcases List.mem_cons.1 ht with rfl | ht
        · have := hr.1
          rwa [Types.RTy.validate] at this
        · exact ih hr.2 t ht
    exact key _ hv

/-- A control-flow graph is replaced. -/
structure BecomesDfg (C : Validate.Context) (h g : Hugr Ops.Op Meta) (p G E X i o w : Nat) (more inner : List Nat)
    (sig : Types.Signature) (row other : List Types.Ty) : Prop where
  at' : StraightAt C h p G E X i o more inner sig row other
  put : AsDfg h G E o w sig row g
  treeG : IsTree g
  fresh : h.live w = false
  known : C.defs "prelude" "UnpackTuple" = .poly [.listType (.runtimeType .linear)]

namespace BecomesDfg

variable {p G E X i o w : Nat} {more inner : List Nat} {sig : Types.Signature} {row other : List Types.Ty}
  (z : BecomesDfg C h g p G E X i o w more inner sig row other)
include z

theorem tree : IsTree h := z.at'.tree
theorem valid : Valid C h := z.at'.valid

theorem ne_w {x : Nat} (hx : h.live x = true) : x ≠ w := by
  rintro rfl; rw [z.fresh] at hx; cases hx

theorem live_cases {x : Nat} (hx : g.live x = true) : (h.live x = true ∧ ¬ Goes h G E x) ∨ x = w := (z.put.live x).1 hx

theorem live_kept {x : Nat} (h1 : h.live x = true) (h2 : ¬ Goes h G E x) : g.live x = true := (z.put.live x).2 (.inl ⟨h1, h2⟩)
theorem live_w : g.live w = true := (z.put.live w).2 (.inr rfl)

theorem live_G : h.live G = true := (z.tree.parent_live _ _ z.at'.upE).2
theorem live_E : h.live E = true := (z.tree.parent_live _ _ z.at'.upE).1
theorem up_i : h.hier.parent i = some E := z.at'.kid.2 (by rw [z.at'.inside]; simp)
theorem up_o : h.hier.parent o = some E := z.at'.kid.2 (by rw [z.at'.inside]; simp)
theorem live_o : h.live o = true := (z.tree.parent_live _ _ z.up_o).1
theorem live_i : h.live i = true := (z.tree.parent_live _ _ z.up_i).1
theorem o_stays : ¬ Goes h G E o := z.at'.kid_stays z.up_o
theorem i_stays : ¬ Goes h G E i := z.at'.kid_stays z.up_i
theorem keptG : g.live G = true := z.live_kept z.live_G z.at'.G_stays
theorem kepto : g.live o = true := z.live_kept z.live_o z.o_stays
theorem G_ne_o : G ≠ o := by
  intro e; have := z.at'.op; rw [e, z.at'.opO] at this; cases this
theorem E_ne_G : E ≠ G := by
  intro e; have := z.at'.op; rw [← e, z.at'.opE] at this; cases this
theorem o_ne_w : o ≠ w := z.ne_w z.live_o
theorem G_ne_w : G ≠ w := z.ne_w z.live_G

theorem op_w : g.ops w = unpackOp row := by rw [z.put.ops w z.live_w, if_pos rfl]
theorem op_G : g.ops G = .dfg sig := by rw [z.put.ops G z.keptG, if_neg z.G_ne_w, if_pos rfl]
theorem op_o : g.ops o = .output sig.output := by
  rw [z.put.ops o z.kepto, if_neg z.o_ne_w, if_neg (Ne.symm z.G_ne_o), if_pos rfl]

theorem ops {x : Nat} (h1 : h.live x = true) (h2 : ¬ Goes h G E x) (hG : x ≠ G) (ho : x ≠ o) : g.ops x = h.ops x := by
  rw [z.put.ops x (z.live_kept h1 h2), if_neg (z.ne_w h1), if_neg hG, if_neg ho]

theorem out_ports {x : Nat} (h1 : h.live x = true) (h2 : ¬ Goes h G E x) :
    (g.ops x).ports .outgoing = (h.ops x).ports .outgoing := by
  by_cases hG : x = G
  · subst hG; rw [z.op_G, z.at'.op]; rfl
  · by_cases ho : x = o
    · subst ho; rw [z.op_o, z.at'.opO]; rfl
    · rw [z.ops h1 h2 hG ho]

theorem in_ports {x : Nat} (h1 : h.live x = true) (h2 : ¬ Goes h G E x) (ho : x ≠ o) :
    (g.ops x).ports .incoming = (h.ops x).ports .incoming := by
  by_cases hG : x = G
  · subst hG; rw [z.op_G, z.at'.op]; rfl
  · rw [z.ops h1 h2 hG ho]

theorem up {x : Nat} (h1 : h.live x = true) (h2 : ¬ Goes h G E x) :
    g.hier.parent x = if h.hier.parent x = some E then some G else h.hier.parent x := by
  rw [z.put.parent x (z.live_kept h1 h2)]
  by_cases e : h.hier.parent x = some E
  · rw [if_pos (.inr e), if_pos e]
  · rw [if_neg (by rintro (e' | e'); exacts [z.ne_w h1 e', e e']), if_neg e]
theorem up_w : g.hier.parent w = some G := by rw [z.put.parent w z.live_w, if_pos (.inl rfl)]
theorem gup_o : g.hier.parent o = some G := by rw [z.up z.live_o z.o_stays, if_pos z.up_o]

theorem kids {x : Nat} (h1 : h.live x = true) (h2 : ¬ Goes h G E x) (hG : x ≠ G) : g.children x = h.children x := by
  rw [z.put.children x (z.live_kept h1 h2), if_neg hG, if_neg (z.ne_w h1)]
theorem kids_G : g.children G = i :: o :: (inner ++ [w]) := by
  rw [z.put.children G z.keptG, if_pos rfl, z.at'.inside]; rfl
theorem kids_w : g.children w = [] := by
  rw [z.put.children w z.live_w, if_neg (Ne.symm z.G_ne_w), if_pos rfl]

theorem not_child {q : Nat} : w ∉ h.children q := by
  intro hc
  have := (z.tree.parent_live _ _ ((z.tree.child_iff _ _).1 hc)).1
  rw [z.fresh] at this; cases this

/-- What is around something that stays. -/
theorem parent_stays {x q : Nat} (hx : ¬ Goes h G E x) (hq : h.hier.parent x = some q) : q = E ∨ ¬ Goes h G E q := by
  by_cases e : q = E
  · exact .inl e
  · refine .inr ?_
    rintro (e' | ⟨c, h1, h2, h3⟩)
    · exact e e'
    · exact hx (.inr ⟨c, h1, h2, .step hq h3⟩)

theorem kid_of_stays {x q : Nat} (hq : ¬ Goes h G E q) (hG : q ≠ G) (hp : h.hier.parent x = some q) : ¬ Goes h G E x := by
  rintro (e | ⟨c, h1, h2, h3⟩)
  · rw [e, z.at'.upE] at hp; cases hp; exact hG rfl
  · rcases above_cases h3 with e | ⟨q', hq', h4⟩
    · rw [e, h1] at hp; cases hp; exact hG rfl
    · rw [hp] at hq'; cases hq'
      exact hq (.inr ⟨c, h1, h2, h4⟩)

theorem above_stays {x a : Nat} (ha : Above h.hier.parent x a) : (x = E ∨ ¬ Goes h G E x) → a = E ∨ ¬ Goes h G E a := by
  induction ha with
  | refl => exact id
  | @step x q a hq _ ih =>
    rintro (rfl | hx)
    · rw [z.at'.upE] at hq; cases hq
      exact ih (.inr z.at'.G_stays)
    · exact ih (z.parent_stays hx hq)

open Classical in
/-- What takes the place of the block is the graph. -/
theorem above {x a : Nat} (ha : Above h.hier.parent x a) : (x = E ∨ ¬ Goes h G E x) →
    Above g.hier.parent (if x = E then G else x) (if a = E then G else a) := by
  induction ha with
  | refl => intro _; exact .refl _
  | @step x q a hq _ ih =>
    rintro (rfl | hx)
    · rw [z.at'.upE] at hq; cases hq
      have := ih (.inr z.at'.G_stays)
      rw [if_neg (Ne.symm z.E_ne_G)] at this
      rw [if_pos rfl]; exact this
    · have hxE : x ≠ E := fun e => hx (.inl e)
      have hup := z.up (z.tree.parent_live _ _ hq).1 hx
      have := ih (z.parent_stays hx hq)
      rw [if_neg hxE]
      refine .step ?_ this
      rw [hup, hq]
      by_cases e : q = E
      · simp [e]
      · simp [e]

/-- Nothing is inside the output. -/
theorem o_leaf {x : Nat} : h.hier.parent x ≠ some o := by
  intro hp
  have hc := z.valid.children o z.live_o
  unfold ChildrenOk at hc
  rw [z.at'.opO] at hc
  have hm : x ∈ h.children o := (z.tree.child_iff _ _).2 hp
  rw [show h.children o = [] from hc] at hm; cases hm

open Classical in
theorem mem_links {l : Link} : l ∈ g.links ↔
    (∃ k ∈ h.links, ¬ Goes h G E k.src ∧ ¬ Goes h G E k.dst ∧ l = redirect o w row.length k) ∨
    ∃ q, q < row.length ∧ l = ⟨w, q, o, q⟩ := by
  rw [z.put.links.mem_iff, List.mem_append, List.mem_map, List.mem_map]
  constructor
  · rintro (⟨k, hk, rfl⟩ | ⟨q, hq, rfl⟩)
    · rw [List.mem_filter, decide_eq_true_eq] at hk
      exact .inl ⟨k, hk.1, hk.2.1, hk.2.2, rfl⟩
    · exact .inr ⟨q, List.mem_range.1 hq, rfl⟩
  · rintro (⟨k, hk, h1, h2, rfl⟩ | ⟨q, hq, rfl⟩)
    · exact .inl ⟨k, by rw [List.mem_filter, decide_eq_true_eq]; exact ⟨hk, h1, h2⟩, rfl⟩
    · exact .inr ⟨q, List.mem_range.2 hq, rfl⟩

theorem live_link {l : Link} (hl : l ∈ h.links) : h.live l.src = true ∧ h.live l.dst = true :=
  Dataflow.link_live z.tree z.valid hl

end BecomesDfg

theorem redirect_src {o w len : Nat} (l : Link) : (redirect o w len l).src = l.src ∧ (redirect o w len l).srcPort = l.srcPort := by
  unfold redirect; split
  · split <;> exact ⟨rfl, rfl⟩
  · exact ⟨rfl, rfl⟩

theorem redirect_ne {o w len : Nat} {l : Link} (hl : l.dst ≠ o) : redirect o w len l = l := if_neg hl

theorem redirect_dst {o w len : Nat} (l : Link) : (l.dst ≠ o ∧ redirect o w len l = l) ∨
    (l.dst = o ∧ l.dstPort = 0 ∧ redirect o w len l = ⟨l.src, l.srcPort, w, 0⟩) ∨
    (l.dst = o ∧ ∃ j, l.dstPort = j + 1 ∧ redirect o w len l = ⟨l.src, l.srcPort, o, len + j⟩) := by
  obtain ⟨a, b, c, d⟩ := l
  by_cases e : c = o
  · subst e
    rcases d with _ | d
    · exact .inr (.inl ⟨rfl, rfl, by simp [redirect]⟩)
    · exact .inr (.inr ⟨rfl, d, rfl, by simp [redirect]⟩)
  · exact .inl ⟨e, redirect_ne e⟩

namespace BecomesDfg

variable {p G E X i o w : Nat} {more inner : List Nat} {sig : Types.Signature} {row other : List Types.Ty}
  (z : BecomesDfg C h g p G E X i o w more inner sig row other)
include z

/-- Edges in other regions. -/
theorem region {q x y : Nat} (h1 : h.live q = true) (h2 : ¬ Goes h G E q) (hG : q ≠ G) :
    RegionEdge g q x y ↔ RegionEdge h q x y := by
  have ho : o ∉ h.children q := fun hc => by
    have : h.hier.parent o = some q := (z.tree.child_iff _ _).1 hc
    rw [z.up_o] at this; cases this; exact h2 (.inl rfl)
  unfold RegionEdge
  rw [z.kids h1 h2 hG]
  constructor
  · rintro ⟨m1, m2, l, hl, rfl, rfl⟩
    rcases z.mem_links.1 hl with ⟨k, hk, k1, k2, rfl⟩ | ⟨r, _, rfl⟩
    · rcases redirect_dst (o := o) (w := w) (len := row.length) k with ⟨_, e⟩ | ⟨_, _, e⟩ | ⟨_, j, _, e⟩
      · rw [e] at m1 m2 ⊢; exact ⟨m1, m2, k, hk, rfl, rfl⟩
      · rw [e] at m2; exact absurd m2 z.not_child
      · rw [e] at m2; exact absurd m2 ho
    · exact absurd m2 ho
  · rintro ⟨m1, m2, l, hl, rfl, rfl⟩
    refine ⟨m1, m2, l, z.mem_links.2 (.inl ⟨l, hl, z.kid_of_stays h2 hG ((z.tree.child_iff _ _).1 m1),
      z.kid_of_stays h2 hG ((z.tree.child_iff _ _).1 m2), (redirect_ne ?_).symm⟩), rfl, rfl⟩
    rintro e; exact ho (e ▸ m2)

/-! ## The rules -/

theorem op_child {q c : Nat} (h2 : ¬ Goes h G E q) (hG : q ≠ G) (hc : c ∈ h.children q) :
    g.ops c = h.ops c ∨ (g.ops c = .dfg sig ∧ h.ops c = .cfg sig) := by
  have hp : h.hier.parent c = some q := (z.tree.child_iff _ _).1 hc
  by_cases e : c = G
  · subst e; exact .inr ⟨z.op_G, z.at'.op⟩
  · refine .inl (z.ops (z.tree.parent_live _ _ hp).1 (z.kid_of_stays h2 hG hp) e ?_)
    rintro rfl
    rw [z.up_o] at hp; cases hp; exact h2 (.inl rfl)

theorem v_children {n : Nat} (hn : g.live n = true) : ChildrenOk g n := by
  rcases z.live_cases hn with ⟨hn, hs⟩ | rfl
  · by_cases hG : n = G
    · subst hG
      unfold ChildrenOk
      rw [z.op_G, z.kids_G]
      have hnd : (i :: o :: inner).Nodup := by
        have := z.tree.child_once E
        have e := z.at'.inside
        change h.hier.children E = _ at e
        rwa [e] at this
      have hio : i ≠ o := fun e => by rw [e] at hnd; simp at hnd
      refine ⟨i, o, inner ++ [w], rfl, ?_, z.op_o, ?_⟩
      · rw [z.ops z.live_i z.i_stays ?_ hio]; exact z.at'.opI
        intro e; have := z.at'.op; rw [← e, z.at'.opI] at this; cases this
      · intro c hc
        rcases List.mem_append.1 hc with hc | hc
        · have hup : h.hier.parent c = some E := z.at'.kid.2 (by rw [z.at'.inside]; simp [hc])
          have hcG : c ≠ n := by
            rintro rfl
            exact z.tree.acyclic _ _ hup (.step z.at'.upE (.refl _))
          have hco : c ≠ o := by
            rintro rfl
            simp [hc] at hnd
          rw [z.ops (z.tree.parent_live _ _ hup).1 (z.at'.kid_stays hup) hcG hco]
          exact z.at'.plain c hc
        · rw [List.mem_singleton] at hc
          subst hc
          rw [z.op_w]
          rintro (⟨_, e⟩ | ⟨_, e⟩) <;> cases e
    · have hc := z.valid.children n hn
      have same := fun c hc => z.op_child (c := c) hs hG hc
      by_cases ho : n = o
      · subst ho
        unfold ChildrenOk at hc ⊢
        rw [z.at'.opO] at hc
        rw [z.op_o, z.kids hn hs hG]; exact hc
      have key : ∀ {a b : List Types.Ty}, (∃ inp out rest, h.children n = inp :: out :: rest ∧
          h.ops inp = .input a ∧ h.ops out = .output b ∧ ∀ c ∈ rest, ¬ IsIO (h.ops c)) →
          ∃ inp out rest, h.children n = inp :: out :: rest ∧
          g.ops inp = .input a ∧ g.ops out = .output b ∧ ∀ c ∈ rest, ¬ IsIO (g.ops c) := by
        rintro a b ⟨inp, out, rest, h1, h2, h3, h4⟩
        refine ⟨inp, out, rest, h1, ?_, ?_, ?_⟩
        · rcases same inp (by rw [h1]; simp) with e | ⟨_, e⟩
          · rw [e, h2]
          · rw [h2] at e; cases e
        · rcases same out (by rw [h1]; simp) with e | ⟨_, e⟩
          · rw [e, h3]
          · rw [h3] at e; cases e
        · intro c hc
          rcases same c (by rw [h1]; simp [hc]) with e | ⟨e, _⟩
          · rw [e]; exact h4 c hc
          · rw [e]; rintro (⟨_, e⟩ | ⟨_, e⟩) <;> cases e
      unfold ChildrenOk at hc ⊢
      rw [z.ops hn hs hG ho, z.kids hn hs hG]
      cases hop : h.ops n with
      | module => trivial
      | conditional a b c =>
        rw [hop] at hc
        refine ⟨hc.1, ?_⟩
        rw [← hc.2]
        refine List.map_congr_left fun x hx => ?_
        rcases same x hx with e | ⟨_, e⟩
        · exact e
        · have : h.ops x ∈ (h.children n).map h.ops := List.mem_map_of_mem hx
          rw [hc.2, e] at this
          simp at this
      | cfg sig' =>
        rw [hop] at hc
        obtain ⟨entry, exit, rest, o', r, h1, h2, h3, h4⟩ := hc
        refine ⟨entry, exit, rest, o', r, h1, ?_, ?_, ?_⟩
        · rcases same entry (by rw [h1]; simp) with e | ⟨_, e⟩
          · rw [e, h2]
          · rw [h2] at e; cases e
        · rcases same exit (by rw [h1]; simp) with e | ⟨_, e⟩
          · rw [e, h3]
          · rw [h3] at e; cases e
        · intro c hc
          rcases same c (by rw [h1]; simp [hc]) with e | ⟨e, _⟩
          · rw [e]; exact h4 c hc
          · rw [e]; intro _ e; cases e
      | funcDefn a b => rw [hop] at hc; exact key hc
      | dfg a => rw [hop] at hc; exact key hc
      | case a => rw [hop] at hc; exact key hc
      | tailLoop a b c => rw [hop] at hc; exact key hc
      | dataflowBlock a b c => rw [hop] at hc; exact key hc
      | _ => rw [hop] at hc; exact hc
  · unfold ChildrenOk
    rw [z.op_w]
    change g.children n = []
    exact z.kids_w

theorem v_contains {n q : Nat} (hp : g.hier.parent n = some q) : MayContain (g.ops q) (g.ops n) := by
  have hn := (z.treeG.parent_live _ _ hp).1
  rcases z.live_cases hn with ⟨hn, hs⟩ | rfl
  · rw [z.up hn hs] at hp
    by_cases e : h.hier.parent n = some E
    · rw [if_pos e] at hp; cases hp
      have hc := z.valid.contains n E e
      rw [z.at'.opE] at hc
      have hc : (body (.dataflowBlock sig.input other [row])).isSome = true ∧ DataflowChild (h.ops n) := hc
      rw [z.op_G]
      refine ⟨rfl, ?_⟩
      by_cases ho : n = o
      · subst ho; rw [z.op_o]; trivial
      · rw [z.ops hn hs ?_ ho]; exact hc.2
        rintro rfl
        exact z.tree.acyclic _ _ e (.step z.at'.upE (.refl _))
    · rw [if_neg e] at hp
      have hq := (z.tree.parent_live _ _ hp).2
      have hqs : ¬ Goes h G E q := by
        rcases z.parent_stays hs hp with e' | e'
        · rw [e'] at hp; exact absurd hp e
        · exact e'
      have hqo : q ≠ o := by rintro rfl; exact z.o_leaf hp
      have hqG : q ≠ G := by rintro rfl; exact hs (z.at'.child_goes hp)
      rw [z.ops hq hqs hqG hqo]
      have hc := z.valid.contains n q hp
      rcases z.op_child hqs hqG ((z.tree.child_iff _ _).2 hp) with e' | ⟨e1, e2⟩
      · rw [e']; exact hc
      · rw [e1]; rw [e2] at hc
        revert hc
        cases h.ops q <;> simp [MayContain, DataflowChild]
  · rw [z.up_w] at hp; cases hp
    rw [z.op_G, z.op_w]; exact ⟨rfl, trivial⟩

theorem o_no_out {l : Link} (hl : l ∈ h.links) : l.src ≠ o := by
  intro e
  obtain ⟨kind, h1, _⟩ := z.valid.kinds l hl
  unfold srcKind at h1
  rw [e, z.at'.opO] at h1
  simp [Op.ports] at h1

theorem v_acyclic {q : Nat} (hq : g.live q = true) (hb : (body (g.ops q)).isSome = true) (n : Nat) :
    ¬ Relation.TransGen (RegionEdge g q) n n := by
  rcases z.live_cases hq with ⟨hq, hs⟩ | rfl
  · by_cases hG : q = G
    · subst hG
      have how : o ≠ w := z.o_ne_w
      let φ : Nat → Nat := fun x => if x = w then o else x
      have φw : φ w = o := by simp [φ]
      have φn : ∀ {x}, x ≠ w → φ x = x := fun hx => by simp [φ, hx]
      have kid : ∀ {x}, x ∈ g.children q → x ≠ w → x ∈ h.children E := by
        intro x hx hw
        rw [z.kids_G] at hx
        rw [z.at'.inside]
        simpa [hw] using hx
      have edge : ∀ x y, RegionEdge g q x y → (x = w ∧ y = o) ∨ (x ≠ w ∧ RegionEdge h E x (φ y)) := by
        rintro x y ⟨h1, h2, l, hl, rfl, rfl⟩
        rcases z.mem_links.1 hl with ⟨k, hk, k1, k2, rfl⟩ | ⟨r, _, rfl⟩
        · have hw := z.ne_w (z.live_link hk).1
          have e1 := (redirect_src (o := o) (w := w) (len := row.length) k).1
          rw [e1] at h1 ⊢
          refine .inr ⟨hw, kid h1 hw, ?_⟩
          rcases redirect_dst (o := o) (w := w) (len := row.length) k with ⟨_, e⟩ | ⟨e', _, e⟩ | ⟨e', j, _, e⟩
          · rw [e] at h2 ⊢
            have hw' := z.ne_w (z.live_link hk).2
            rw [φn hw']
            exact ⟨kid h2 hw', k, hk, rfl, rfl⟩
          · rw [e]; simp only [φw]
            exact ⟨z.at'.kid.1 z.up_o, k, hk, rfl, e'⟩
          · rw [e]; simp only [φn how]
            exact ⟨z.at'.kid.1 z.up_o, k, hk, rfl, e'⟩
        · exact .inl ⟨rfl, rfl⟩
      have key : ∀ x y, Relation.TransGen (RegionEdge g q) x y →
          Relation.TransGen (RegionEdge h E) (φ x) (φ y) ∨ (x = w ∧ y = o) := by
        intro x y hxy
        induction hxy with
        | single he =>
          rcases edge _ _ he with h1 | ⟨h1, h2⟩
          · exact .inr h1
          · rw [φn h1]; exact .inl (.single h2)
        | @tail y v _ he ih =>
          rcases edge _ _ he with ⟨rfl, rfl⟩ | ⟨h1, h2⟩
          · rcases ih with ih | ⟨_, e⟩
            · rw [φw] at ih
              rw [φn how]; exact .inl ih
            · exact absurd e.symm how
          · rcases ih with ih | ⟨rfl, rfl⟩
            · rw [φn h1] at ih
              exact .inl (ih.tail h2)
            · rw [φw]; exact .inl (.single h2)
      intro hc
      rcases key n n hc with h1 | ⟨e1, e2⟩
      · exact z.valid.acyclic E z.live_E (by rw [z.at'.opE]; rfl) _ h1
      · exact how (e2.symm.trans e1)
    · have : RegionEdge g q = RegionEdge h q := by
        funext x y; exact propext (z.region hq hs hG)
      rw [this]
      by_cases ho : q = o
      · subst ho; rw [z.op_o] at hb; cases hb
      · rw [z.ops hq hs hG ho] at hb
        exact z.valid.acyclic q hq hb n
  · rw [z.op_w] at hb; cases hb

theorem srcKind_eq {l : Link} (h1 : h.live l.src = true) (h2 : ¬ Goes h G E l.src) : srcKind g l = srcKind h l := by
  unfold srcKind; rw [z.out_ports h1 h2]

/-- Where a link may go, it may go afterwards. -/
theorem edge {l l' : Link} {kind : Kind} (hs : l.src = l'.src) (hd : g.hier.parent l'.dst = g.hier.parent l.dst)
    (hl : l ∈ h.links) (k1 : ¬ Goes h G E l.src) (k2 : ¬ Goes h G E l.dst) (he : EdgeOk h l kind) : EdgeOk g l' kind := by
  classical
  obtain ⟨q, hq, hor⟩ := he
  obtain ⟨l1, l2⟩ := z.live_link hl
  have hqG : q ≠ G := by rintro rfl; exact k1 (z.at'.child_goes hq)
  have upS : ∀ {x r}, h.hier.parent x = some r → ¬ Goes h G E x → g.hier.parent x = some (if r = E then G else r) := by
    intro x r hr hx
    rw [z.up (z.tree.parent_live _ _ hr).1 hx, hr]
    by_cases e : r = E <;> simp [e]
  refine ⟨if q = E then G else q, by rw [← hs]; exact upS hq k1, ?_⟩
  rcases hor with h3 | ⟨r, a, hr, hra, h3⟩
  · exact .inl (by rw [hd]; exact upS h3 k2)
  · have hr' := z.parent_stays k2 hr
    have ha' := z.above_stays hra hr'
    have inside : h.hier.parent a = some q → a ≠ E ∧ ¬ Goes h G E a := by
      intro e
      have hne : a ≠ E := by
        rintro rfl
        rw [z.at'.upE] at e; cases e; exact hqG rfl
      exact ⟨hne, ha'.resolve_left hne⟩
    have hao : a ≠ o := by
      rintro rfl
      by_cases e : r = a
      · rw [e] at hr; exact z.o_leaf hr
      · obtain ⟨c, _, hc⟩ := hra.last e
        exact z.o_leaf hc
    refine .inr ⟨if r = E then G else r, if a = E then G else a, by rw [hd]; exact upS hr k2, z.above hra hr', ?_⟩
    rcases h3 with ⟨h3, h4⟩ | ⟨h3, ⟨h4, k, hk, e1, e2, h5⟩ | ⟨G', sig', entry, rest, n1, p1, p2, p3, p4, p5⟩⟩
    · obtain ⟨a1, a2⟩ := inside h4
      exact .inl ⟨h3, by rw [if_neg a1]; exact upS h4 a2⟩
    · obtain ⟨a1, a2⟩ := inside h4
      refine .inr ⟨h3, .inl ⟨by rw [if_neg a1]; exact upS h4 a2, k, z.mem_links.2 (.inl ⟨k, hk, by rw [e1]; exact k1,
        by rw [e2]; exact a2, (redirect_ne (by rw [e2]; exact hao)).symm⟩), e1.trans hs, by rw [if_neg a1]; exact e2, ?_⟩⟩
      rw [z.srcKind_eq (z.live_link hk).1 (by rw [e1]; exact k1)]; exact h5
    · have hq' := z.parent_stays k1 hq
      have hG' : G' ≠ G := by
        rintro rfl
        have e1 : q = E := by
          rcases hq' with e | e
          · exact e
          · exact absurd (z.at'.child_goes p1) e
        have e2 : a = E := by
          rcases ha' with e | e
          · exact e
          · exact absurd (z.at'.child_goes p2) e
        exact n1 (e2.trans e1.symm)
      have hqE : q ≠ E := by
        rintro rfl
        rw [z.at'.upE] at p1; cases p1; exact hG' rfl
      have haE : a ≠ E := by
        rintro rfl
        rw [z.at'.upE] at p2; cases p2; exact hG' rfl
      have hqs := hq'.resolve_left hqE
      have has := ha'.resolve_left haE
      have hGE : G' ≠ E := by
        rintro rfl
        rw [z.at'.opE] at p3; cases p3
      have hGs := (z.parent_stays hqs p1).resolve_left hGE
      have hGl := (z.tree.parent_live _ _ p1).2
      have hGo : G' ≠ o := by
        rintro rfl
        rw [z.at'.opO] at p3; cases p3
      rw [if_neg hqE, if_neg haE]
      refine .inr ⟨h3, .inr ⟨G', sig', entry, rest, n1, by rw [upS p1 hqs, if_neg hGE],
        by rw [upS p2 has, if_neg hGE], by rw [z.ops hGl hGs hG' hGo]; exact p3,
        by rw [z.kids hGl hGs hG']; exact p4, ?_⟩⟩
      have : RegionEdge g G' = RegionEdge h G' := by
        funext x y; exact propext (z.region hGl hGs hG')
      rw [this]; exact p5

theorem inputs_w : (g.ops w).ports .incoming = [.value (sumOf [row]), .stateOrder] := by rw [z.op_w]; rfl
theorem outputs_w : (g.ops w).ports .outgoing = row.map .value ++ [.stateOrder] := by rw [z.op_w]; rfl
theorem inputs_o : (g.ops o).ports .incoming = (row ++ other).map .value ++ [.stateOrder] := by
  rw [z.op_o, z.at'.outs]; rfl
theorem old_inputs_o : (h.ops o).ports .incoming = .value (sumOf [row]) :: (other.map .value ++ [.stateOrder]) := by
  rw [z.at'.opO]; rfl

theorem input_first {k : Nat} (hk : k < row.length) : ((g.ops o).ports .incoming)[k]? = some (.value row[k]) := by
  rw [z.inputs_o, List.map_append, List.append_assoc, List.getElem?_append_left (by simpa using hk)]
  simp [hk]

theorem input_rest (j : Nat) : ((g.ops o).ports .incoming)[row.length + j]? = ((h.ops o).ports .incoming)[j + 1]? := by
  rw [z.inputs_o, z.old_inputs_o, List.map_append, List.append_assoc, List.getElem?_append_right (by simp)]
  simp

theorem v_kinds {l : Link} (hl : l ∈ g.links) : ∃ kind, srcKind g l = some kind ∧
    ((g.ops l.dst).ports .incoming)[l.dstPort]? = some kind ∧ EdgeOk g l kind := by
  rcases z.mem_links.1 hl with ⟨k, hk, k1, k2, rfl⟩ | ⟨q, hq, rfl⟩
  · obtain ⟨kind, h1, h2, h3⟩ := z.valid.kinds k hk
    obtain ⟨l1, l2⟩ := z.live_link hk
    have hsk : srcKind g (redirect o w row.length k) = some kind := by
      rw [← h1, ← z.srcKind_eq l1 k1]
      unfold srcKind
      rw [(redirect_src k).1, (redirect_src k).2]
    refine ⟨kind, hsk, ?_, z.edge (redirect_src k).1.symm ?_ hk k1 k2 h3⟩
    · rcases redirect_dst (o := o) (w := w) (len := row.length) k with ⟨e', e⟩ | ⟨e', e0, e⟩ | ⟨e', j, ej, e⟩
      · rw [e, z.in_ports l2 k2 e']; exact h2
      · rw [e]
        rw [e', e0, z.old_inputs_o] at h2
        rw [z.inputs_w]; exact h2
      · rw [e]
        rw [e', ej] at h2
        rw [z.input_rest]; exact h2
    · rcases redirect_dst (o := o) (w := w) (len := row.length) k with ⟨e', e⟩ | ⟨e', e0, e⟩ | ⟨e', j, ej, e⟩
      · rw [e]
      · rw [e, e', z.gup_o]; exact z.up_w
      · rw [e, e']
  · refine ⟨.value row[q], ?_, z.input_first hq, G, z.up_w, .inl z.gup_o⟩
    unfold srcKind
    simp only [z.outputs_w]
    rw [List.getElem?_append_left (by simpa using hq)]
    simp [hq]

/-! ## Types -/

theorem decls_old {n : Nat} {D : List Types.Term} (hd : DeclsAt g n D) : h.live n = true → ¬ Goes h G E n → DeclsAt h n D := by
  induction hd with
  | root => intro _ _; rw [z.put.roots.1]; exact .root
  | @inside n q name sg hp ho =>
    intro h1 h2
    rw [z.up h1 h2] at hp
    by_cases e : h.hier.parent n = some E
    · rw [if_pos e] at hp; cases hp
      rw [z.op_G] at ho; cases ho
    · rw [if_neg e] at hp
      have hq := (z.tree.parent_live _ _ hp).2
      have hqs := (z.parent_stays h2 hp).resolve_left (by rintro rfl; exact e hp)
      refine .inside hp (name := name) ?_
      rw [← ho]; symm
      refine z.ops hq hqs ?_ ?_
      · rintro rfl; rw [z.op_G] at ho; cases ho
      · rintro rfl; rw [z.op_o] at ho; cases ho
  | @inherited n q D hp ho _ ih =>
    intro h1 h2
    rw [z.up h1 h2] at hp
    by_cases e : h.hier.parent n = some E
    · rw [if_pos e] at hp; cases hp
      refine .inherited e (fun _ _ e => by rw [z.at'.opE] at e; cases e) ?_
      exact .inherited z.at'.upE (fun _ _ e => by rw [z.at'.op] at e; cases e) (ih z.live_G z.at'.G_stays)
    · rw [if_neg e] at hp
      have hq := (z.tree.parent_live _ _ hp).2
      have hqs := (z.parent_stays h2 hp).resolve_left (by rintro rfl; exact e hp)
      refine .inherited hp ?_ (ih hq hqs)
      intro name sg e'
      refine ho name sg ?_
      rw [← e']
      refine z.ops hq hqs ?_ ?_
      · rintro rfl; rw [z.at'.op] at e'; cases e'
      · rintro rfl; rw [z.at'.opO] at e'; cases e'

theorem decls_w {D : List Types.Term} (hd : DeclsAt g w D) : DeclsAt h o D :=
  z.decls_old (decls_sibling z.treeG z.up_w z.gup_o hd) z.live_o z.o_stays

theorem row_valid {D : List Types.Term} (hd : DeclsAt g w D) : ∀ t ∈ row, t.validate C.types D = true := by
  have hk : ((h.ops o).ports .incoming)[0]? = some (.value (sumOf [row])) := by rw [z.old_inputs_o]; rfl
  obtain ⟨l, hl, h1, h2, _⟩ := value_link z.valid z.live_o hk
  obtain ⟨kind, k1, k2, _⟩ := z.valid.kinds l hl
  rw [h1, h2, hk] at k2; cases k2
  have hs := decls_link z.tree z.valid hl k1 (by rw [h1]; exact z.decls_w hd)
  have := (z.valid.types l.src D (z.live_link hl).1 hs).2 _ (List.mem_of_getElem? k1)
  exact tuple_valid this

/-! ## Counts -/

open Classical in
theorem count (φ : Link → Bool) : g.links.countP φ =
    h.links.countP (fun l => φ (redirect o w row.length l) && decide (¬ Goes h G E l.src ∧ ¬ Goes h G E l.dst)) +
    (List.range row.length).countP (fun k => φ ⟨w, k, o, k⟩) := by
  rw [z.put.links.countP_eq, List.countP_append, List.countP_map, List.countP_map, List.countP_filter]
  rfl

theorem v_inDegree {n port : Nat} {kind : Kind} (hn : g.live n = true)
    (hk : ((g.ops n).ports .incoming)[port]? = some kind) : InDegreeOk kind (linksTo g n port).length := by
  classical
  have hc := z.count fun l => decide (l.dst = n) && decide (l.dstPort = port)
  unfold linksTo
  rw [← List.countP_eq_length_filter]
  rcases z.live_cases hn with ⟨hn, hs⟩ | rfl
  · have hnw := z.ne_w hn
    by_cases ho : n = o
    · subst ho
      by_cases hlt : port < row.length
      · rw [z.input_first hlt] at hk; cases hk
        have e1 : h.links.countP (fun l => (decide ((redirect n w row.length l).dst = n) &&
            decide ((redirect n w row.length l).dstPort = port)) && decide (¬ Goes h G E l.src ∧ ¬ Goes h G E l.dst)) = 0 := by
          rw [List.countP_eq_zero]
          intro l hl hx
          simp only [Bool.and_eq_true, decide_eq_true_eq] at hx
          rcases redirect_dst (o := n) (w := w) (len := row.length) l with ⟨e', e⟩ | ⟨e', e0, e⟩ | ⟨e', j, ej, e⟩
          · rw [e] at hx; exact e' hx.1.1
          · rw [e] at hx; exact hnw hx.1.1.symm
          · rw [e] at hx
            have := hx.1.2
            simp only at this
            omega
        have e2 : (List.range row.length).countP (fun k => decide (n = n) && decide (k = port)) = 1 := by
          simp only [decide_true, Bool.true_and]
          have := (List.nodup_range (n := row.length)).count (a := port)
          rw [if_pos (List.mem_range.2 hlt)] at this
          rw [← this, List.count]
          congr 1
        rw [e1, e2] at hc
        rw [hc]; exact rfl
      · obtain ⟨j, rfl⟩ : ∃ j, port = row.length + j := ⟨port - row.length, by omega⟩
        rw [z.input_rest] at hk
        have hd := z.valid.inDegree n (j + 1) kind z.live_o hk
        unfold linksTo at hd
        rw [← List.countP_eq_length_filter] at hd
        have e1 : h.links.countP (fun l => (decide ((redirect n w row.length l).dst = n) &&
            decide ((redirect n w row.length l).dstPort = row.length + j)) && decide (¬ Goes h G E l.src ∧ ¬ Goes h G E l.dst)) =
            h.links.countP (fun l => decide (l.dst = n) && decide (l.dstPort = j + 1)) := by
          refine List.countP_congr fun l hl => ?_
          simp only [Bool.and_eq_true, decide_eq_true_eq]
          rcases redirect_dst (o := n) (w := w) (len := row.length) l with ⟨e', e⟩ | ⟨e', e0, e⟩ | ⟨e', j', ej, e⟩
          · rw [e]; simp [e']
          · rw [e]; simp [e', e0, Ne.symm hnw]
          · rw [e]
            have hst : ¬ Goes h G E l.dst := by rw [e']; exact hs
            simp [e', ej, hs, z.at'.src_stays hl hst]
        have e2 : (List.range row.length).countP (fun k => decide (n = n) && decide (k = row.length + j)) = 0 := by
          rw [List.countP_eq_zero]
          intro k hk
          have := List.mem_range.1 hk
          simp; omega
        rw [e1, e2] at hc
        rw [hc]; exact hd
    · rw [z.in_ports hn hs ho] at hk
      have hd := z.valid.inDegree n port kind hn hk
      unfold linksTo at hd
      rw [← List.countP_eq_length_filter] at hd
      have e1 : h.links.countP (fun l => (decide ((redirect o w row.length l).dst = n) &&
          decide ((redirect o w row.length l).dstPort = port)) && decide (¬ Goes h G E l.src ∧ ¬ Goes h G E l.dst)) =
          h.links.countP (fun l => decide (l.dst = n) && decide (l.dstPort = port)) := by
        refine List.countP_congr fun l hl => ?_
        simp only [Bool.and_eq_true, decide_eq_true_eq]
        rcases redirect_dst (o := o) (w := w) (len := row.length) l with ⟨e', e⟩ | ⟨e', e0, e⟩ | ⟨e', j, ej, e⟩
        · rw [e]
          constructor
          · exact fun h => h.1
          · intro he
            have hst : ¬ Goes h G E l.dst := by rw [he.1]; exact hs
            exact ⟨he, z.at'.src_stays hl hst, hst⟩
        · rw [e]; simp [e', Ne.symm hnw, Ne.symm ho]
        · rw [e]; simp [e', Ne.symm ho]
      have e2 : (List.range row.length).countP (fun k => decide (o = n) && decide (k = port)) = 0 := by
        rw [List.countP_eq_zero]
        intro k _
        simp [Ne.symm ho]
      rw [e1, e2] at hc
      rw [hc]; exact hd
  · rw [z.inputs_w] at hk
    rcases port with _ | _ | q
    · cases hk
      have hko : ((h.ops o).ports .incoming)[0]? = some (.value (sumOf [row])) := by rw [z.old_inputs_o]; rfl
      have hd := z.valid.inDegree o 0 _ z.live_o hko
      unfold linksTo at hd
      rw [← List.countP_eq_length_filter] at hd
      have e1 : h.links.countP (fun l => (decide ((redirect o n row.length l).dst = n) &&
          decide ((redirect o n row.length l).dstPort = 0)) && decide (¬ Goes h G E l.src ∧ ¬ Goes h G E l.dst)) =
          h.links.countP (fun l => decide (l.dst = o) && decide (l.dstPort = 0)) := by
        refine List.countP_congr fun l hl => ?_
        simp only [Bool.and_eq_true, decide_eq_true_eq]
        rcases redirect_dst (o := o) (w := n) (len := row.length) l with ⟨e', e⟩ | ⟨e', e0, e⟩ | ⟨e', j, ej, e⟩
        · rw [e]; simp [e', z.ne_w (z.live_link hl).2]
        · rw [e]
          have hst : ¬ Goes h G E l.dst := by rw [e']; exact z.o_stays
          simp [e', e0, z.o_stays, z.at'.src_stays hl hst]
        · rw [e]; simp [ej, z.o_ne_w]
      have e2 : (List.range row.length).countP (fun k => decide (o = n) && decide (k = 0)) = 0 := by
        rw [List.countP_eq_zero]
        intro k _
        simp [z.o_ne_w]
      rw [e1, e2] at hc
      rw [hc]; exact hd
    · cases hk; trivial
    · simp at hk

theorem v_outDegree {n port : Nat} {kind : Kind} (hn : g.live n = true)
    (hk : ((g.ops n).ports .outgoing)[port]? = some kind) : OutDegreeOk kind (linksFrom g n port).length := by
  classical
  have hc := z.count fun l => decide (l.src = n) && decide (l.srcPort = port)
  unfold linksFrom
  rw [← List.countP_eq_length_filter]
  simp only [(redirect_src _).1, (redirect_src _).2] at hc
  rcases z.live_cases hn with ⟨hn, hs⟩ | rfl
  · rw [z.out_ports hn hs] at hk
    have hd := z.valid.outDegree n port kind hn hk
    unfold linksFrom at hd
    rw [← List.countP_eq_length_filter] at hd
    have e2 : (List.range row.length).countP (fun k => decide (w = n) && decide (k = port)) = 0 := by
      rw [List.countP_eq_zero]
      intro k _
      simp [Ne.symm (z.ne_w hn)]
    have e1 : (∀ l ∈ h.links, l.src = n → l.srcPort = port → ¬ Goes h G E l.dst) →
        h.links.countP (fun l => (decide (l.src = n) && decide (l.srcPort = port)) &&
          decide (¬ Goes h G E l.src ∧ ¬ Goes h G E l.dst)) =
        h.links.countP (fun l => decide (l.src = n) && decide (l.srcPort = port)) := by
      intro hst
      refine List.countP_congr fun l hl => ?_
      simp only [Bool.and_eq_true, decide_eq_true_eq]
      exact ⟨fun h => h.1, fun h => ⟨h, by rw [h.1]; exact hs, hst l hl h.1 h.2⟩⟩
    have stay : kind.isStatic = false → (∀ t, kind = .value t → t.copyable = false) →
        ∀ l ∈ h.links, l.src = n → l.srcPort = port → ¬ Goes h G E l.dst := by
      intro q1 q2 l hl h1 h2 hg
      obtain ⟨kind', k1, k2⟩ := z.at'.lost hl (by rw [h1]; exact hs) hg
      unfold srcKind at k1
      rw [h1, h2, hk] at k1; cases k1
      rcases k2 with k2 | ⟨t, rfl, k2⟩
      · rw [q1] at k2; cases k2
      · rw [q2 t rfl] at k2; cases k2
    cases kind with
    | value t =>
      by_cases ht : t.copyable = true
      · exact .inl ht
      · rw [e1 (stay rfl (fun t' e => by cases e; simpa using ht)), e2] at hc
        rw [hc]; exact hd
    | controlFlow =>
      rw [e1 (stay rfl (fun t' e => by cases e)), e2] at hc
      rw [hc]; exact hd
    | _ => trivial
  · rw [z.outputs_w] at hk
    by_cases hlt : port < row.length
    · rw [List.getElem?_append_left (by simpa using hlt)] at hk
      simp only [List.getElem?_map, List.getElem?_eq_getElem hlt, Option.map_some, Option.some.injEq] at hk
      subst hk
      have e1 : h.links.countP (fun l => (decide (l.src = n) && decide (l.srcPort = port)) &&
          decide (¬ Goes h G E l.src ∧ ¬ Goes h G E l.dst)) = 0 := by
        rw [List.countP_eq_zero]
        intro l hl hx
        simp only [Bool.and_eq_true, decide_eq_true_eq] at hx
        exact z.ne_w (z.live_link hl).1 hx.1.1
      have e2 : (List.range row.length).countP (fun k => decide (n = n) && decide (k = port)) = 1 := by
        simp only [decide_true, Bool.true_and]
        have := (List.nodup_range (n := row.length)).count (a := port)
        rw [if_pos (List.mem_range.2 hlt)] at this
        rw [← this, List.count]
        congr 1
      rw [e1, e2] at hc
      exact .inr hc
    · rw [List.getElem?_append_right (by simpa using hlt)] at hk
      have := List.mem_of_getElem? hk
      rw [List.mem_singleton] at this
      subst this; trivial

theorem valid_g : Valid C g := by
  refine ⟨?_, ?_, fun n q hp => z.v_contains hp, fun n hn => z.v_children hn, ?_, ?_, fun q hq hb n => z.v_acyclic hq hb n, ?_,
    fun n port kind hn hk => z.v_inDegree hn hk, fun n port kind hn hk => z.v_outDegree hn hk,
    fun l hl => z.v_kinds hl, ?_, ?_⟩
  · intro n hn
    rcases z.live_cases hn with ⟨hn, hs⟩ | rfl
    · by_cases hG : n = G
      · subst hG; rw [z.op_G]; rfl
      · by_cases ho : n = o
        · subst ho; rw [z.op_o]; rfl
        · rw [z.ops hn hs hG ho]; exact z.valid.tags n hn
    · rw [z.op_w]; rfl
  · intro n hn
    obtain ⟨q1, q2⟩ := z.put.ports n hn
    rcases z.live_cases hn with ⟨hn, hs⟩ | rfl
    · have hw := z.ne_w hn
      rw [if_neg hw] at q1 q2
      rw [q1, q2, z.out_ports hn hs]
      refine ⟨?_, (z.valid.ports n hn).2⟩
      by_cases ho : n = o
      · subst ho; rw [if_pos rfl, z.op_o]; simp [Op.ports]
      · rw [if_neg ho, z.in_ports hn hs ho]; exact (z.valid.ports n hn).1
    · rw [if_pos rfl] at q1 q2
      rw [q1, q2, z.inputs_w, z.outputs_w]; simp
  · rw [z.put.roots.2, z.at'.entry, z.op_G]; rfl
  · intro l hl q sig' hq hs hd
    have hql : g.live q = true := (z.treeG.parent_live _ _ ((z.treeG.child_iff _ _).1 hs)).2
    rcases z.live_cases hql with ⟨hql, hqs⟩ | rfl
    · have hG : q ≠ G := by rintro rfl; rw [z.op_G] at hq; cases hq
      have ho : q ≠ o := by rintro rfl; rw [z.op_o] at hq; cases hq
      rw [z.kids hql hqs hG] at hs hd
      rw [z.ops hql hqs hG ho] at hq
      have hoc : o ∉ h.children q := fun hc => by
        have : h.hier.parent o = some q := (z.tree.child_iff _ _).1 hc
        rw [z.up_o] at this; cases this; exact hqs (.inl rfl)
      rcases z.mem_links.1 hl with ⟨k, hk, k1, k2, rfl⟩ | ⟨r, _, rfl⟩
      · rcases redirect_dst (o := o) (w := w) (len := row.length) k with ⟨_, e⟩ | ⟨_, _, e⟩ | ⟨_, j, _, e⟩
        · rw [e] at hs hd ⊢
          obtain ⟨ins, other', rows, row', q1, q2, q3⟩ := z.valid.blocks k hk q sig' hq hs hd
          refine ⟨ins, other', rows, row', ?_, q2, ?_⟩
          · rcases z.op_child hqs hG hs with e | ⟨_, e⟩
            · rw [e]; exact q1
            · rw [q1] at e; cases e
          · rcases z.op_child hqs hG hd with e | ⟨_, e⟩
            · rw [e]; exact q3
            · rw [e] at q3
              rcases q3 with ⟨_, _, e⟩ | e <;> cases e
        · rw [e] at hd; exact absurd hd z.not_child
        · rw [e] at hd; exact absurd hd hoc
      · exact absurd hd hoc
    · rw [z.op_w] at hq; cases hq
  · intro n t' hn ho
    rcases z.live_cases hn with ⟨hn, hs⟩ | rfl
    · have hG : n ≠ G := by rintro rfl; rw [z.op_G] at ho; cases ho
      have hno : n ≠ o := by rintro rfl; rw [z.op_o] at ho; cases ho
      rw [z.ops hn hs hG hno] at ho; exact z.valid.constants n t' hn ho
    · rw [z.op_w] at ho; cases ho
  · intro n D hn hd
    rcases z.live_cases hn with ⟨hn, hs⟩ | rfl
    · have ht := z.valid.types n D hn (z.decls_old hd hn hs)
      rw [z.out_ports hn hs]
      refine ⟨?_, ht.2⟩
      by_cases hG : n = G
      · subst hG; rw [z.op_G]; trivial
      · by_cases ho : n = o
        · subst ho; rw [z.op_o]; trivial
        · rw [z.ops hn hs hG ho]; exact ht.1
    · have hv := z.row_valid hd
      rw [z.outputs_w, z.op_w]
      constructor
      · simp only [unpackOp, ArgsOk, z.known]
        constructor
        · rw [Types.validateTerms_iff]
          intro t ht
          rw [List.mem_singleton] at ht
          subst ht
          rw [Types.Term.validate, Types.validateTerms_iff]
          intro t ht
          obtain ⟨t, ht', rfl⟩ := List.mem_map.1 ht
          rw [Types.Term.validate]; exact hv t ht'
        · have key : ∀ r : List Types.Ty, Types.checkItems (r.map .runtime) (.runtimeType .linear) = true := by
            intro r
            induction r with
            | nil => rfl
            | cons t ts ih =>
              rw [List.map_cons, Types.checkItems, ih]
              cases hb : t.bound <;> simp [Types.checkTerm, Types.Bound.contains, hb]
          simp [Types.checkTerms, Types.checkTerm, key]
      · intro kind hk
        rcases List.mem_append.1 hk with hk | hk
        · obtain ⟨t, ht, rfl⟩ := List.mem_map.1 hk
          exact hv t ht
        · rw [List.mem_singleton] at hk
          subst hk; trivial
  · have hrs : ¬ Goes h G E h.moduleRoot := by
      rintro (e | ⟨c, h1, _, h3⟩)
      · have := z.at'.upE
        rw [← e, z.tree.root_top] at this; cases this
      · rcases above_cases h3 with e | ⟨r, hr, _⟩
        · rw [← e, z.tree.root_top] at h1; cases h1
        · rw [z.tree.root_top] at hr; cases hr
    have hrG : h.moduleRoot ≠ G := by
      intro e
      have := z.at'.parent
      rw [← e, z.tree.root_top] at this; cases this
    have hx : ∀ a name sig' e, Exports C g a name sig' e → Exports C h a name sig' e := by
      rintro a name sig' e ⟨h1, h2, h3⟩
      rw [z.put.roots.1, z.kids z.tree.root_live hrs hrG] at h1
      refine ⟨h1, h2, ?_⟩
      rcases z.op_child hrs hrG h1 with e' | ⟨e', _⟩
      · rw [e'] at h3; exact h3
      · rw [e'] at h3
        rcases h3 with ⟨_, h3⟩ | ⟨_, h3⟩ <;> cases h3
    intro a b name siga sigb da db ha hb
    exact z.valid.exports a b name siga sigb da db (hx _ _ _ _ ha) (hx _ _ _ _ hb)

end BecomesDfg

end Verif.Patch
