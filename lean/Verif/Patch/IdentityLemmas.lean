import Verif.Patch.SimpleReplaceBridge
import Verif.Patch.Identity
import Verif.Patch.PeelValid
import Verif.Patch.LinkLemmas
import Verif.Patch.InlineDfgSim

/-!
# Inserting an identity
-/
namespace Verif.Patch

open Verif.Graph Verif.Ops Verif.Passes Verif.Validate Verif.Dataflow

variable {Meta W E : Type} {C : Validate.Context} {h g : Hugr Ops.Op Meta}

/-- An identity is put on a link that carries a value. -/
structure NoopAt (C : Validate.Context) (h g : Hugr Ops.Op Meta) (w P s sp d dp : Nat) (t : Types.Ty) : Prop where
  tree : IsTree h
  treeG : IsTree g
  valid : Valid C h
  parent : h.hier.parent d = some P
  kind : ((h.ops d).ports .incoming)[dp]? = some (.value t)
  fresh : h.live w = false
  blank : ¬ IsDefn h w
  put : NoopPut h w P s sp d dp t g
  known : C.defs "prelude" "Noop" = .poly [.runtimeType .linear]

namespace NoopAt

variable {w P s sp d dp : Nat} {t : Types.Ty} (z : NoopAt C h g w P s sp d dp t)
include z

theorem old_link : (⟨s, sp, d, dp⟩ : Link) ∈ h.links := by
  obtain ⟨rest, h1, _⟩ := z.put.links
  exact h1.mem_iff.2 (by simp)

theorem ne_w {x : Nat} (hx : h.live x = true) : x ≠ w := by
  rintro rfl; rw [z.fresh] at hx; cases hx

theorem live_d : h.live d = true := (z.tree.parent_live _ _ z.parent).1
theorem live_P : h.live P = true := (z.tree.parent_live _ _ z.parent).2
theorem live_s : h.live s = true := (link_live z.tree z.valid z.old_link).1

theorem ops {x : Nat} (hx : x ≠ w) : g.ops x = h.ops x := by rw [z.put.ops, if_neg hx]
theorem op_w : g.ops w = noop t := by rw [z.put.ops, if_pos rfl]

theorem kids {x : Nat} (hx : x ≠ P) : g.children x = h.children x := by rw [z.put.children, if_neg hx]
theorem kids_P : g.children P = h.children P ++ [w] := by rw [z.put.children, if_pos rfl]

theorem up {x : Nat} (hx : x ≠ w) : g.hier.parent x = h.hier.parent x := by rw [z.put.parent, if_neg hx]
theorem up_w : g.hier.parent w = some P := by rw [z.put.parent, if_pos rfl]

theorem live_cases {x : Nat} (hx : g.live x = true) : (h.live x = true ∧ x ≠ w) ∨ x = w := by
  rcases (z.put.live x).1 hx with h1 | h1
  · exact .inl ⟨h1, z.ne_w h1⟩
  · exact .inr h1

theorem not_child {p : Nat} : w ∉ h.children p := by
  intro hc
  have := (z.tree.parent_live _ _ ((z.tree.child_iff _ _).1 hc)).1
  rw [z.fresh] at this; cases this

theorem live_child {c p : Nat} (hc : c ∈ h.children p) : h.live c = true :=
  (z.tree.parent_live _ _ ((z.tree.child_iff _ _).1 hc)).1

theorem clean {l : Link} (hl : l ∈ h.links) : l.src ≠ w ∧ l.dst ≠ w := by
  obtain ⟨h1, h2⟩ := link_live z.tree z.valid hl
  exact ⟨z.ne_w h1, z.ne_w h2⟩

/-- The link from before is the only one to the port. -/
theorem only {l : Link} (hl : l ∈ h.links) (h1 : l.dst = d) (h2 : l.dstPort = dp) : l = ⟨s, sp, d, dp⟩ := by
  obtain ⟨l', _, _, _, hu⟩ := value_link z.valid z.live_d z.kind
  rw [hu l hl h1 h2, hu _ z.old_link rfl rfl]

theorem mem_links {l : Link} : l ∈ g.links ↔ l = ⟨s, sp, w, 0⟩ ∨ l = ⟨w, 0, d, dp⟩ ∨
    (l ∈ h.links ∧ ¬ (l.dst = d ∧ l.dstPort = dp)) := by
  obtain ⟨rest, h1, h2⟩ := z.put.links
  have hc : h.links.countP (fun l => l.dst = d && l.dstPort = dp) = 1 := by
    have := z.valid.inDegree d dp _ z.live_d z.kind
    rw [List.countP_eq_length_filter]; exact this
  rw [h1.countP_eq, List.countP_cons_of_pos (by simp)] at hc
  have hr : ∀ l ∈ rest, ¬ (l.dst = d ∧ l.dstPort = dp) := by
    intro l hl he
    have : rest.countP (fun l => l.dst = d && l.dstPort = dp) = 0 := by omega
    rw [List.countP_eq_zero] at this
    exact this l hl (by simp [he.1, he.2])
  rw [h2.mem_iff, List.mem_cons, List.mem_cons, h1.mem_iff, List.mem_cons]
  constructor
  · rintro (h3 | h3 | h3)
    · exact .inl h3
    · exact .inr (.inl h3)
    · exact .inr (.inr ⟨.inr h3, hr l h3⟩)
  · rintro (h3 | h3 | ⟨rfl | h3, h4⟩)
    · exact .inl h3
    · exact .inr (.inl h3)
    · exact absurd ⟨rfl, rfl⟩ h4
    · exact .inr (.inr h3)

theorem count (φ : Link → Bool) : g.links.countP φ + (if φ ⟨s, sp, d, dp⟩ then 1 else 0) =
    h.links.countP φ + (if φ ⟨s, sp, w, 0⟩ then 1 else 0) + (if φ ⟨w, 0, d, dp⟩ then 1 else 0) := by
  obtain ⟨rest, h1, h2⟩ := z.put.links
  rw [h1.countP_eq, h2.countP_eq]
  simp only [List.countP_cons]
  omega

/-- The kind of the link from before. -/
theorem src_kind : srcKind h ⟨s, sp, d, dp⟩ = some (.value t) := by
  obtain ⟨kind, h1, h2, _⟩ := z.valid.kinds _ z.old_link
  simp only at h2
  rw [z.kind] at h2; cases h2
  exact h1

theorem body_P : (body (h.ops P)).isSome = true :=
  body_of_value z.valid z.parent (dir := .incoming) (List.mem_of_getElem? z.kind) (.inl rfl)

theorem keep {l : Link} (hl : l ∈ h.links) (hk : srcKind h l ≠ some (.value t)) : l ∈ g.links := by
  refine z.mem_links.2 (.inr (.inr ⟨hl, fun he => hk ?_⟩))
  rw [z.only hl he.1 he.2]; exact z.src_kind

theorem P_ne {p : Nat} (hb : (body (h.ops p)).isSome = false) : p ≠ P := by
  rintro rfl
  have := z.body_P
  rw [hb] at this; cases this

theorem above {m q : Nat} (ha : Above h.hier.parent m q) (hm : m ≠ w) : Above g.hier.parent m q := by
  induction ha with
  | refl => exact .refl _
  | step hp _ ih => exact .step (by rw [z.up hm]; exact hp) (ih (z.ne_w (z.tree.parent_live _ _ hp).2))

/-- Edges in other regions. -/
theorem region {p x y : Nat} (hp : p ≠ P) : RegionEdge g p x y ↔ RegionEdge h p x y := by
  have hd : d ∉ h.children p := fun hc => by
    have : h.hier.parent d = some p := (z.tree.child_iff _ _).1 hc
    rw [z.parent] at this; cases this; exact hp rfl
  unfold RegionEdge
  rw [z.kids hp]
  constructor
  · rintro ⟨h1, h2, l, hl, rfl, rfl⟩
    rcases z.mem_links.1 hl with rfl | rfl | ⟨hl, _⟩
    · exact absurd h2 z.not_child
    · exact absurd h2 hd
    · exact ⟨h1, h2, l, hl, rfl, rfl⟩
  · rintro ⟨h1, h2, l, hl, rfl, rfl⟩
    exact ⟨h1, h2, l, z.mem_links.2 (.inr (.inr ⟨hl, fun he => hd (he.1 ▸ h2)⟩)), rfl, rfl⟩

/-! ## The rules -/

theorem v_children {n : Nat} (hn : g.live n = true) : ChildrenOk g n := by
  rcases z.live_cases hn with ⟨hn, hw⟩ | rfl
  · have hc := z.valid.children n hn
    have hk : ∀ c ∈ h.children n, c ≠ w := fun c hc => z.ne_w (z.live_child hc)
    by_cases hP : n = P
    · subst hP
      have key : ∀ {i o : List Types.Ty}, (∃ inp out rest, h.children n = inp :: out :: rest ∧
          h.ops inp = .input i ∧ h.ops out = .output o ∧ ∀ c ∈ rest, ¬ IsIO (h.ops c)) →
          ∃ inp out rest, g.children n = inp :: out :: rest ∧
          g.ops inp = .input i ∧ g.ops out = .output o ∧ ∀ c ∈ rest, ¬ IsIO (g.ops c) := by
        rintro i o ⟨inp, out, rest, h1, h2, h3, h4⟩
        refine ⟨inp, out, rest ++ [w], by rw [z.kids_P, h1]; rfl, ?_, ?_, ?_⟩
        · rw [z.ops (hk inp (by rw [h1]; simp))]; exact h2
        · rw [z.ops (hk out (by rw [h1]; simp))]; exact h3
        · intro c hc
          rcases List.mem_append.1 hc with hc | hc
          · rw [z.ops (hk c (by rw [h1]; simp [hc]))]; exact h4 c hc
          · rw [List.mem_singleton] at hc
            subst hc
            rw [z.op_w]
            rintro (⟨_, e⟩ | ⟨_, e⟩) <;> cases e
      have hb := z.body_P
      unfold ChildrenOk at hc ⊢
      rw [z.ops hw]
      cases ho : h.ops n with
      | funcDefn a b => rw [ho] at hc; exact key hc
      | dfg a => rw [ho] at hc; exact key hc
      | case a => rw [ho] at hc; exact key hc
      | tailLoop a b c => rw [ho] at hc; exact key hc
      | dataflowBlock a b c => rw [ho] at hc; exact key hc
      | _ => rw [ho] at hb; cases hb
    · have key : ∀ {i o : List Types.Ty}, (∃ inp out rest, h.children n = inp :: out :: rest ∧
          h.ops inp = .input i ∧ h.ops out = .output o ∧ ∀ c ∈ rest, ¬ IsIO (h.ops c)) →
          ∃ inp out rest, h.children n = inp :: out :: rest ∧
          g.ops inp = .input i ∧ g.ops out = .output o ∧ ∀ c ∈ rest, ¬ IsIO (g.ops c) := by
        rintro i o ⟨inp, out, rest, h1, h2, h3, h4⟩
        refine ⟨inp, out, rest, h1, ?_, ?_, ?_⟩
        · rw [z.ops (hk inp (by rw [h1]; simp))]; exact h2
        · rw [z.ops (hk out (by rw [h1]; simp))]; exact h3
        · intro c hc
          rw [z.ops (hk c (by rw [h1]; simp [hc]))]; exact h4 c hc
      unfold ChildrenOk at hc ⊢
      rw [z.ops hw, z.kids hP]
      cases ho : h.ops n with
      | module => trivial
      | conditional a b c =>
        rw [ho] at hc
        refine ⟨hc.1, ?_⟩
        rw [← hc.2]
        exact List.map_congr_left fun c hc => z.ops (hk c hc)
      | cfg sig =>
        rw [ho] at hc
        obtain ⟨entry, exit, rest, o, r, h1, h2, h3, h4⟩ := hc
        refine ⟨entry, exit, rest, o, r, h1, ?_, ?_, ?_⟩
        · rw [z.ops (hk entry (by rw [h1]; simp))]; exact h2
        · rw [z.ops (hk exit (by rw [h1]; simp))]; exact h3
        · intro c hc
          rw [z.ops (hk c (by rw [h1]; simp [hc]))]; exact h4 c hc
      | funcDefn a b => rw [ho] at hc; exact key hc
      | dfg a => rw [ho] at hc; exact key hc
      | case a => rw [ho] at hc; exact key hc
      | tailLoop a b c => rw [ho] at hc; exact key hc
      | dataflowBlock a b c => rw [ho] at hc; exact key hc
      | _ => rw [ho] at hc; exact hc
  · unfold ChildrenOk
    rw [z.op_w]
    change g.children n = []
    rw [z.kids (fun e : n = P => z.ne_w z.live_P e.symm)]
    exact (z.tree.dead z.fresh).2

theorem v_acyclic {p : Nat} (hp : g.live p = true) (hb : (body (g.ops p)).isSome = true) (n : Nat) :
    ¬ Relation.TransGen (RegionEdge g p) n n := by
  rcases z.live_cases hp with ⟨hp, hw⟩ | rfl
  · rw [z.ops hw] at hb
    by_cases hP : p = P
    · subst hP
      have hdw : d ≠ w := z.ne_w z.live_d
      let φ : Nat → Nat := fun x => if x = w then d else x
      have φw : φ w = d := by simp [φ]
      have φn : ∀ {x}, x ≠ w → φ x = x := fun hx => by simp [φ, hx]
      have edge : ∀ x y, RegionEdge g p x y → (x = w ∧ y = d) ∨ (x ≠ w ∧ RegionEdge h p x (φ y)) := by
        rintro x y ⟨h1, h2, l, hl, rfl, rfl⟩
        rw [z.kids_P] at h1 h2
        rcases z.mem_links.1 hl with rfl | rfl | ⟨hl, _⟩
        · have hsw := z.ne_w z.live_s
          refine .inr ⟨hsw, ?_⟩
          simp only [φw]
          refine ⟨?_, (z.tree.child_iff _ _).2 z.parent, _, z.old_link, rfl, rfl⟩
          simpa [hsw] using h1
        · exact .inl ⟨rfl, rfl⟩
        · obtain ⟨n1, n2⟩ := z.clean hl
          refine .inr ⟨n1, ?_⟩
          rw [φn n2]
          exact ⟨by simpa [n1] using h1, by simpa [n2] using h2, l, hl, rfl, rfl⟩
      have key : ∀ x y, Relation.TransGen (RegionEdge g p) x y →
          Relation.TransGen (RegionEdge h p) (φ x) (φ y) ∨ (x = w ∧ y = d) := by
        intro x y hxy
        induction hxy with
        | single he =>
          rcases edge _ _ he with h1 | ⟨h1, h2⟩
          · exact .inr h1
          · rw [φn h1]; exact .inl (.single h2)
        | @tail y v _ he ih =>
          rcases edge _ _ he with ⟨rfl, rfl⟩ | ⟨h1, h2⟩
          · rcases ih with ih | ⟨_, e⟩
            · rw [φw] at ih
              rw [φn hdw]; exact .inl ih
            · exact absurd e.symm hdw
          · rcases ih with ih | ⟨rfl, rfl⟩
            · rw [φn h1] at ih
              exact .inl (ih.tail h2)
            · rw [φw]; exact .inl (.single h2)
      intro hc
      rcases key n n hc with h1 | ⟨e1, e2⟩
      · exact z.valid.acyclic p hp hb _ h1
      · exact hdw (e2.symm.trans e1)
    · have : RegionEdge g p = RegionEdge h p := by
        funext x y; exact propext (z.region hP)
      rw [this]; exact z.valid.acyclic p hp hb n
  · rw [z.op_w] at hb; cases hb

theorem srcKind_eq {l : Link} (hl : l.src ≠ w) : srcKind g l = srcKind h l := by
  unfold srcKind; rw [z.ops hl]

/-- Where the link from before may go, others may go. -/
theorem edge {l l' : Link} {kind : Kind} (hs : l.src = l'.src) (hd : g.hier.parent l'.dst = h.hier.parent l.dst)
    (hl : l ∈ h.links) (he : EdgeOk h l kind) : EdgeOk g l' kind := by
  obtain ⟨p, hp, hor⟩ := he
  have hsw := (z.clean hl).1
  refine ⟨p, by rw [← hs, z.up hsw]; exact hp, ?_⟩
  rcases hor with h3 | ⟨q, a, hq, hqa, h3⟩
  · exact .inl (by rw [hd]; exact h3)
  · have hqw : q ≠ w := z.ne_w (z.tree.parent_live _ _ hq).2
    have haw : a ≠ w := z.ne_w (above_live z.tree hqa (z.tree.parent_live _ _ hq).2)
    refine .inr ⟨q, a, by rw [hd]; exact hq, z.above hqa hqw, ?_⟩
    rcases h3 with ⟨h3, h4⟩ | ⟨h3, ⟨h4, o, ho, e1, e2, h5⟩ | ⟨G, sig, entry, rest, n1, p1, p2, p3, p4, p5⟩⟩
    · exact .inl ⟨h3, by rw [z.up haw]; exact h4⟩
    · refine .inr ⟨h3, .inl ⟨by rw [z.up haw]; exact h4, o, z.keep ho (by rw [h5]; simp), e1.trans hs, e2, ?_⟩⟩
      rw [z.srcKind_eq (z.clean ho).1]; exact h5
    · have hG : G ≠ P := z.P_ne (by rw [p3]; rfl)
      have hGw : G ≠ w := z.ne_w (z.tree.parent_live _ _ p1).2
      refine .inr ⟨h3, .inr ⟨G, sig, entry, rest, n1, by rw [z.up (z.ne_w (z.tree.parent_live _ _ p1).1)]; exact p1,
        by rw [z.up haw]; exact p2, by rw [z.ops hGw]; exact p3, by rw [z.kids hG]; exact p4, ?_⟩⟩
      have : RegionEdge g G = RegionEdge h G := by
        funext x y; exact propext (z.region hG)
      rw [this]; exact p5

theorem v_kinds {l : Link} (hl : l ∈ g.links) : ∃ kind, srcKind g l = some kind ∧
    ((g.ops l.dst).ports .incoming)[l.dstPort]? = some kind ∧ EdgeOk g l kind := by
  have hdw := z.ne_w z.live_d
  have hsw := z.ne_w z.live_s
  rcases z.mem_links.1 hl with rfl | rfl | ⟨hl, _⟩
  · obtain ⟨kind, h1, h2, h3⟩ := z.valid.kinds _ z.old_link
    rw [z.src_kind] at h1; cases h1
    refine ⟨.value t, by rw [z.srcKind_eq hsw]; exact z.src_kind, by simp only [z.op_w]; rfl, ?_⟩
    refine z.edge (l := ⟨s, sp, d, dp⟩) rfl ?_ z.old_link h3
    simp only [z.up_w, z.parent]
  · refine ⟨.value t, by unfold srcKind; simp only [z.op_w]; rfl, by simp only [z.ops hdw]; exact z.kind,
      P, z.up_w, .inl (by simp only [z.up hdw]; exact z.parent)⟩
  · obtain ⟨n1, n2⟩ := z.clean hl
    obtain ⟨kind, h1, h2, h3⟩ := z.valid.kinds l hl
    exact ⟨kind, by rw [z.srcKind_eq n1]; exact h1, by rw [z.ops n2]; exact h2, z.edge rfl (by rw [z.up n2]) hl h3⟩

/-! ## Types -/

theorem decls_old {n : Nat} {D : List Types.Term} (hd : DeclsAt g n D) : n ≠ w → DeclsAt h n D := by
  induction hd with
  | root => intro _; rw [z.put.roots.1]; exact .root
  | inside hp ho =>
    intro hn
    rw [z.up hn] at hp
    exact .inside hp (by rw [← z.ops (z.ne_w (z.tree.parent_live _ _ hp).2)]; exact ho)
  | inherited hp ho _ ih =>
    intro hn
    rw [z.up hn] at hp
    have hw := z.ne_w (z.tree.parent_live _ _ hp).2
    exact .inherited hp (by rw [← z.ops hw]; exact ho) (ih hw)

/-- The variables at the new node are those at the node that follows. -/
theorem decls_new {D : List Types.Term} (hd : DeclsAt g w D) : DeclsAt h d D := by
  cases hd with
  | root =>
    have := z.up_w
    rw [z.treeG.root_top] at this; cases this
  | inside hp ho =>
    rw [z.up_w] at hp; cases hp
    exact .inside z.parent (by rw [← z.ops (z.ne_w z.live_P)]; exact ho)
  | inherited hp ho hd =>
    rw [z.up_w] at hp; cases hp
    exact .inherited z.parent (by rw [← z.ops (z.ne_w z.live_P)]; exact ho) (z.decls_old hd (z.ne_w z.live_P))

end NoopAt

/-- No function is inside a node that is not in a module. -/
theorem no_function (ht : IsTree h) (hv : Valid C h) {y a p : Nat} (hya : Above h.hier.parent y a)
    (hp : h.hier.parent a = some p) (hm : h.ops p ≠ .module) : ∀ name sig, h.ops y ≠ .funcDefn name sig := by
  intro name sig hop
  have inModule : ∀ {q}, h.hier.parent y = some q → h.ops q = .module := by
    intro q hq
    have hc := hv.contains _ _ hq
    rw [hop] at hc
    cases ho : h.ops q <;> rw [ho] at hc <;> simp [MayContain, DataflowChild] at hc
  rcases above_cases hya with rfl | ⟨q, hq, hqa⟩
  · exact hm (inModule hp)
  · have hroot := valid_oneModule ht hv q (ht.parent_live _ _ hq).2 (inModule hq)
    rcases above_cases hqa with rfl | ⟨r, hr, _⟩
    · rw [hroot, ht.root_top] at hp; cases hp
    · rw [hroot, ht.root_top] at hr; cases hr

/-- The variables at a node are those at the nodes around it in the same function. -/
theorem decls_climb (ht : IsTree h) (hv : Valid C h) {x a p : Nat} {D : List Types.Term} (hxa : Above h.hier.parent x a)
    (hp : h.hier.parent a = some p) (hm : h.ops p ≠ .module) (hd : DeclsAt h x D) : DeclsAt h a D := by
  induction hxa with
  | refl => exact hd
  | step hq hqa ih => exact ih hp (decls_up ht hd hq (no_function ht hv hqa hp hm))

/-- Siblings have the same variables. -/
theorem decls_sibling (ht : IsTree h) {x y p : Nat} {D : List Types.Term} (hx : h.hier.parent x = some p)
    (hy : h.hier.parent y = some p) (hd : DeclsAt h x D) : DeclsAt h y D := by
  cases hd with
  | root => rw [ht.root_top] at hx; cases hx
  | inside hp ho => rw [hx] at hp; cases hp; exact .inside hy ho
  | inherited hp ho hd => rw [hx] at hp; cases hp; exact .inherited hy ho hd

/-- The variables at both ends of a link that carries a value are the same. -/
theorem decls_link (ht : IsTree h) (hv : Valid C h) {l : Link} (hl : l ∈ h.links) {t : Types.Ty}
    (hk : srcKind h l = some (.value t)) {D : List Types.Term} (hd : DeclsAt h l.dst D) : DeclsAt h l.src D := by
  obtain ⟨kind, h1, h2, p, hp, hor⟩ := hv.kinds l hl
  rw [hk] at h1; cases h1
  have hb : (body (h.ops p)).isSome = true :=
    body_of_value hv hp (dir := .outgoing) (List.mem_of_getElem? hk) (.inl rfl)
  rcases hor with h3 | ⟨q, a, hq, hqa, ⟨h3, _⟩ | ⟨_, ⟨h4, _⟩ | ⟨G, sig, entry, rest, n1, p1, p2, p3, p4, p5⟩⟩⟩
  · exact decls_sibling ht h3 hp hd
  · simp [Kind.isStatic] at h3
  · have hm : h.ops p ≠ .module := fun e => by rw [e] at hb; cases hb
    exact decls_sibling ht h4 hp (decls_climb ht hv (.step hq hqa) h4 hm hd)
  · have hm : h.ops G ≠ .module := fun e => by rw [p3] at e; cases e
    have hpd := decls_sibling ht p2 p1 (decls_climb ht hv (.step hq hqa) p2 hm hd)
    exact .inherited hp (no_function ht hv (.refl _) p1 hm) hpd

namespace NoopAt

variable {w P s sp d dp : Nat} {t : Types.Ty} (z : NoopAt C h g w P s sp d dp t)
include z

theorem valid_type {D : List Types.Term} (hd : DeclsAt g w D) : t.validate C.types D = true := by
  have hs := decls_link z.tree z.valid z.old_link z.src_kind (z.decls_new hd)
  exact (z.valid.types s D z.live_s hs).2 (.value t) (List.mem_of_getElem? z.src_kind)

theorem valid_g : Valid C g := by
  have hdw := z.ne_w z.live_d
  have hsw := z.ne_w z.live_s
  have none : ∀ φ : Link → Bool, (∀ l, φ l = true → l.src = w ∨ l.dst = w) → h.links.countP φ = 0 := by
    intro φ hφ
    rw [List.countP_eq_zero]
    intro l hl hc
    rcases hφ l hc with e | e
    · exact (z.clean hl).1 e
    · exact (z.clean hl).2 e
  refine ⟨?_, ?_, ?_, fun n hn => z.v_children hn, ?_, ?_, fun p hp hb n => z.v_acyclic hp hb n, ?_, ?_, ?_,
    fun l hl => z.v_kinds hl, ?_, ?_⟩
  · intro n hn
    rcases z.live_cases hn with ⟨hn, hw⟩ | rfl
    · rw [z.ops hw]; exact z.valid.tags n hn
    · rw [z.op_w]; rfl
  · intro n hn
    rcases z.live_cases hn with ⟨hn, hw⟩ | rfl
    · rw [z.ops hw, (z.put.others n hw).1, (z.put.others n hw).2]; exact z.valid.ports n hn
    · rw [z.op_w, z.put.ports.1, z.put.ports.2]; exact ⟨rfl, rfl⟩
  · intro n p hp
    by_cases hn : n = w
    · subst hn
      rw [z.up_w] at hp; cases hp
      rw [z.op_w, z.ops (z.ne_w z.live_P)]
      have hb := z.body_P
      cases ho : h.ops P <;> rw [ho] at hb <;> first | exact ⟨rfl, trivial⟩ | cases hb
    · rw [z.up hn] at hp
      rw [z.ops hn, z.ops (z.ne_w (z.tree.parent_live _ _ hp).2)]
      exact z.valid.contains n p hp
  · rw [z.put.roots.2, z.ops (z.ne_w z.tree.entry_live)]; exact z.valid.entrypoint
  · intro l hl p sig hp hs hd
    have hpw : p ≠ w := by
      rintro rfl
      rw [z.op_w] at hp; cases hp
    rw [z.ops hpw] at hp
    have hpP : p ≠ P := z.P_ne (by rw [hp]; rfl)
    rw [z.kids hpP] at hs hd
    rcases z.mem_links.1 hl with rfl | rfl | ⟨hl, _⟩
    · exact absurd hd z.not_child
    · exact absurd hs z.not_child
    · obtain ⟨n1, n2⟩ := z.clean hl
      obtain ⟨ins, other, rows, row, q1, q2, q3⟩ := z.valid.blocks l hl p sig hp hs hd
      exact ⟨ins, other, rows, row, by rw [z.ops n1]; exact q1, q2, by rw [z.ops n2]; exact q3⟩
  · intro n t' hn ho
    rcases z.live_cases hn with ⟨hn, hw⟩ | rfl
    · rw [z.ops hw] at ho; exact z.valid.constants n t' hn ho
    · rw [z.op_w] at ho; cases ho
  · intro n port kind hn hk
    have hc := z.count fun l => decide (l.dst = n) && decide (l.dstPort = port)
    unfold linksTo
    rw [← List.countP_eq_length_filter]
    rcases z.live_cases hn with ⟨hn, hw⟩ | rfl
    · rw [z.ops hw] at hk
      have hd := z.valid.inDegree n port kind hn hk
      unfold linksTo at hd
      rw [← List.countP_eq_length_filter] at hd
      simp only [Ne.symm hw, decide_false, Bool.false_and, Bool.false_eq_true, if_false, Nat.add_zero] at hc
      rw [Nat.add_right_cancel hc]; exact hd
    · rw [z.op_w] at hk
      rw [none _ (by intro l hl; simp only [Bool.and_eq_true, decide_eq_true_eq] at hl; exact .inr hl.1)] at hc
      simp only [hdw, decide_false, Bool.false_and, Bool.false_eq_true, if_false, decide_true, Bool.true_and,
        decide_eq_true_eq, Nat.add_zero, Nat.zero_add] at hc
      have hk' : ([.value t, .stateOrder] : List Kind)[port]? = some kind := hk
      rcases port with _ | _ | q
      · cases hk'; exact hc
      · cases hk'; trivial
      · simp at hk'
  · intro n port kind hn hk
    have hc := z.count fun l => decide (l.src = n) && decide (l.srcPort = port)
    unfold linksFrom
    rw [← List.countP_eq_length_filter]
    rcases z.live_cases hn with ⟨hn, hw⟩ | rfl
    · rw [z.ops hw] at hk
      have hd := z.valid.outDegree n port kind hn hk
      unfold linksFrom at hd
      rw [← List.countP_eq_length_filter] at hd
      simp only [Ne.symm hw, decide_false, Bool.false_and, Bool.false_eq_true, if_false, Nat.add_zero] at hc
      rw [Nat.add_right_cancel hc]; exact hd
    · rw [z.op_w] at hk
      rw [none _ (by intro l hl; simp only [Bool.and_eq_true, decide_eq_true_eq] at hl; exact .inl hl.1)] at hc
      simp only [hsw, decide_false, Bool.false_and, Bool.false_eq_true, if_false, decide_true, Bool.true_and,
        decide_eq_true_eq, Nat.add_zero, Nat.zero_add] at hc
      have hk' : ([.value t, .stateOrder] : List Kind)[port]? = some kind := hk
      rcases port with _ | _ | q
      · cases hk'; exact .inr hc
      · cases hk'; trivial
      · simp at hk'
  · intro n D hn hd
    rcases z.live_cases hn with ⟨hn, hw⟩ | rfl
    · rw [z.ops hw]; exact z.valid.types n D hn (z.decls_old hd hw)
    · have hv := z.valid_type hd
      rw [z.op_w]
      constructor
      · simp only [noop, ArgsOk, z.known]
        refine ⟨by simpa [Types.validateTerms, Types.Term.validate] using hv, ?_⟩
        cases hb : t.bound <;> simp [Types.checkTerms, Types.checkTerm, Types.Bound.contains, hb]
      · intro kind hk
        have hk' : kind ∈ ([.value t, .stateOrder] : List Kind) := hk
        simp only [List.mem_cons, List.not_mem_nil, or_false] at hk'
        rcases hk' with rfl | rfl
        · exact hv
        · trivial
  · have hrP : h.moduleRoot ≠ P ∨ True := .inr trivial
    have hx : ∀ a name sig e, Exports C g a name sig e → Exports C h a name sig e := by
      rintro a name sig e ⟨h1, h2, h3⟩
      have haw : a ≠ w := by
        rintro rfl
        rw [z.op_w] at h3
        rcases h3 with ⟨_, h3⟩ | ⟨_, h3⟩ <;> cases h3
      rw [z.put.roots.1, z.put.children] at h1
      rw [z.ops haw] at h3
      refine ⟨?_, h2, h3⟩
      by_cases e : h.moduleRoot = P
      · rw [if_pos e] at h1
        rw [e]; simpa [haw] using h1
      · rw [if_neg e] at h1; exact h1
    intro a b name siga sigb da db ha hb
    exact z.valid.exports a b name siga sigb da db (hx _ _ _ _ ha) (hx _ _ _ _ hb)

/-! ## Results -/

theorem extra : Extra h g w P s sp := by
  have hdw := z.ne_w z.live_d
  have hsw := z.ne_w z.live_s
  have hPw := z.ne_w z.live_P
  have ndw : ¬ IsDefn g w := by
    rintro ⟨a, b, e⟩; rw [z.op_w] at e; cases e
  have notStatic : (h.ops d).ownStaticPort ≠ some dp := by
    intro e
    rcases static_kind e with ⟨_, hk⟩ | ⟨_, _, hk⟩ <;> rw [z.kind] at hk <;> cases hk
  refine ⟨fun n hn => z.ops hn, ?_, z.blank, fun p h1 _ => z.kids h1, ?_, ?_, ?_, fun p => z.not_child, ?_, ?_, ?_, hPw,
    hsw, fun l hl => z.clean hl, ?_, ?_, ?_, ?_⟩
  · intro f
    by_cases hf : f = w
    · subst hf; exact ⟨fun h => absurd h z.blank, fun h => absurd h ndw⟩
    · unfold IsDefn; rw [z.ops hf]
  · intro n; rw [z.kids_P]; simp
  · intro _ i o
    obtain ⟨i', o', ti, tj, ⟨rest, hio⟩, _, _⟩ := body_children z.valid z.live_P z.body_P
    unfold HasIO
    rw [z.kids_P, hio]
    constructor
    · rintro ⟨r, e⟩; cases e; exact ⟨_, rfl⟩
    · rintro ⟨r, e⟩; cases e; exact ⟨_, rfl⟩
  · intro sig hs
    rw [z.ops hPw] at hs
    have hb := z.body_P
    rw [hs] at hb; cases hb
  · intro p n h1 h2
    have q1 : g.hier.parent n = some P := (z.treeG.child_iff _ _).1 h1
    have q2 : g.hier.parent n = some p := (z.treeG.child_iff _ _).1 h2
    rw [q1] at q2; cases q2; rfl
  · intro x y t' hs
    rw [z.ops hPw] at hs
    have hb := z.body_P
    rw [hs] at hb; cases hb
  · intro _ _ _ _ _ _; rw [z.ops hPw]; exact z.body_P
  · intro l hl _ hd hs
    rcases z.mem_links.1 hl with rfl | rfl | ⟨hl, _⟩
    · exact absurd rfl hd
    · exact absurd rfl hs
    · exact hl
  · intro l hl hm hs
    rcases z.mem_links.1 hl with rfl | rfl | ⟨hl, _⟩
    · exact absurd hs hsw
    · exact ⟨hdw, rfl, by rw [z.kids_P]; exact List.mem_append_left _ ((z.tree.child_iff _ _).2 z.parent),
        by simp only [z.ops hdw]; exact notStatic, z.old_link⟩
    · exact absurd hs (z.clean hl).1
  · rintro l hl b hb rfl x y t' hop hd
    rcases z.mem_links.1 hl with rfl | rfl | ⟨hl, _⟩
    · have := z.src_kind
      unfold srcKind at this
      simp only [z.ops hsw] at hop
      simp only [hop] at this
      have := List.mem_of_getElem? this
      simp [Op.ports] at this
    · exact hdw hd
    · exact (z.clean hl).2 hd
  · intro l hl hm
    by_cases he : l.dst = d ∧ l.dstPort = dp
    · have := z.only hl he.1 he.2
      subst this
      refine .inr ⟨rfl, rfl, by rw [z.kids_P]; exact List.mem_append_left _ ((z.tree.child_iff _ _).2 z.parent), notStatic, ?_,
        z.mem_links.2 (.inr (.inl rfl))⟩
      intro x y t' hop
      have := z.src_kind
      unfold srcKind at this
      simp only at hop
      simp only [hop] at this
      have := List.mem_of_getElem? this
      simp [Op.ports] at this
    · exact .inl (z.mem_links.2 (.inr (.inr ⟨hl, he⟩)))

theorem passes {S : Sem W E} (hS : ∀ ins outs, S.ext w ins outs ↔ outs = ins) : Passes h g S w P s sp := by
  have hdw := z.ne_w z.live_d
  have hsw := z.ne_w z.live_s
  have inW : ∀ {l : Link}, l ∈ g.links → l.dst = w → l.dstPort = 0 → l = ⟨s, sp, w, 0⟩ := by
    intro l hl h1 _
    rcases z.mem_links.1 hl with rfl | rfl | ⟨hl, _⟩
    · rfl
    · exact absurd h1 hdw
    · exact absurd h1 (z.clean hl).2
  have num : numIns (noop t) = 1 ∧ numOuts (noop t) = 1 := ⟨rfl, rfl⟩
  constructor
  · intro σ i o hio hr
    have hdi : d ≠ i := by
      rintro rfl
      obtain ⟨i', o', ti, tj, ⟨rest, hio'⟩, hi, _⟩ := body_children z.valid z.live_P z.body_P
      obtain ⟨r, hio⟩ := hio
      rw [hio'] at hio; cases hio
      have := z.kind
      rw [hi] at this
      have := List.mem_of_getElem? this
      simp [Op.ports] at this
    obtain ⟨ins, hlen, hin⟩ := hr d ((z.tree.child_iff _ _).2 z.parent) hdi
    have hlt : dp < ins.length := by
      rw [hlen]
      exact in_lt (z.valid.tags d z.live_d) z.kind
    obtain ⟨l, h1, h2, h3, h4⟩ := hin dp ins[dp] (List.getElem?_eq_getElem hlt)
    have := z.only h1 h2 h3
    subst this
    refine ⟨[ins[dp]], [ins[dp]], by rw [z.op_w]; rfl, ?_, ?_, ?_⟩
    · intro σ' hσ
      refine ⟨by rw [z.op_w]; rfl, ?_⟩
      intro k v hv
      rcases k with _ | k
      · cases hv
        exact ⟨_, z.mem_links.2 (.inl rfl), rfl, rfl, by simp only; rw [← hσ s hsw]; exact h4⟩
      · simp at hv
    · intro ρ
      refine .leaf (.ext z.op_w (by simp) rfl ((hS _ _).2 rfl))
    · intro _ _ _ _; exact h4.symm
  · intro σ ins outs hr hrun l hl _ hs
    have ho : outs = ins := by
      cases hrun with
      | leaf hf =>
        cases hf with
        | ext _ _ _ h4 => exact (hS _ _).1 h4
        | external hc =>
          cases hc with
          | direct h1 => rw [z.op_w] at h1; cases h1
          | indirect h1 => rw [z.op_w] at h1; cases h1
        | makeTuple h1 => rw [z.op_w] at h1; simp [noop] at h1
        | unpackTuple h1 => rw [z.op_w] at h1; simp [noop] at h1
        | tag h1 => rw [z.op_w] at h1; cases h1
        | loadConstant h1 => rw [z.op_w] at h1; cases h1
        | loadFunction h1 => rw [z.op_w] at h1; cases h1
        | unknown h1 => rw [z.op_w] at h1; cases h1
      | const h1 => rw [z.op_w] at h1
      | dfg h1 => rw [z.op_w] at h1; cases h1
      | cond h1 => rw [z.op_w] at h1; cases h1
      | tailLoop h1 => rw [z.op_w] at h1; cases h1
      | cfg h1 => rw [z.op_w] at h1; cases h1
      | call hc =>
        cases hc with
        | direct h1 => rw [z.op_w] at h1; cases h1
        | indirect h1 => rw [z.op_w] at h1; cases h1
    subst ho
    have hlen : outs.length = 1 := by rw [hr.1, z.op_w]; rfl
    obtain ⟨v, rfl⟩ := List.length_eq_one_iff.1 hlen
    obtain ⟨l', h1, h2, h3, h4⟩ := hr.2 0 v rfl
    have := inW h1 h2 h3
    subst this
    exact h4.symm

theorem returns {S : Sem W E} (hS : ∀ ins outs, S.ext w ins outs ↔ outs = ins) {f : Nat} {args outs : List (Val W)} :
    Returns h S f args outs ↔ Returns g S f args outs := extra_returns z.extra (z.passes hS)

end NoopAt

end Verif.Patch
