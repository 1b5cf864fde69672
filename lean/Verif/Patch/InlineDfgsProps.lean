import Verif.Patch.InlineDfgs
import Verif.Patch.InlineDfgFindings
import Verif.Patch.InlineDfgValidProps

/-!
# C57: inlining all DFG nodes
-/
namespace Verif.Patch

open Verif.Graph Verif.Ops Verif.Passes Verif.Validate Verif.Dataflow

variable {Meta W E : Type} {C : Validate.Context} {h g : Hugr Ops.Op Meta}

/-! ## Specification -/

/-- Where a node is when the nodes in `D` are dissolved: in the closest node around it that is left. -/
inductive Lifted (D : Nat → Prop) (h : Hugr Ops.Op Meta) : Nat → Nat → Prop
  | here {n q : Nat} : h.hier.parent n = some q → ¬ D q → Lifted D h n q
  | up {n d q : Nat} : h.hier.parent n = some d → D d → Lifted D h d q → Lifted D h n q

/-- `g` is `h` without the nodes in `D`, their inputs and their outputs; the other nodes are in the
closest node that is left. -/
structure AllInlined (D : Nat → Prop) (h g : Hugr Ops.Op Meta) : Prop where
  live : ∀ n, g.live n = true ↔ h.live n = true ∧ ¬ ∃ d, D d ∧ (n = d ∨ n ∈ (h.children d).take 2)
  ops : ∀ n, g.live n = true → g.ops n = h.ops n
  parent : ∀ n, g.live n = true → ∀ q, g.hier.parent n = some q ↔ Lifted D h n q
  entrypoint : g.entrypoint = h.entrypoint
  moduleRoot : g.moduleRoot = h.moduleRoot

/-- A DFG node inside the entrypoint. -/
def InnerDfg (h : Hugr Ops.Op Meta) (d : Nat) : Prop :=
  Above h.hier.parent d h.entrypoint ∧ d ≠ h.entrypoint ∧ ∃ sig, h.ops d = .dfg sig

/-! ## One step -/

namespace Dissolved
variable {p d i o : Nat} {sig : Types.Signature} {rest : List Nat} (z : Dissolved C h g p d i o sig rest)
include z

theorem linksLocal (hl : LinksLocal h) : LinksLocal g := by
  intro l hm kind hk hs
  obtain ⟨h1, h2, _⟩ := (z.inl.links l).1 hm
  rw [z.up h1, z.up h2]
  have at_ : ∀ l ∈ h.links, l.src = d ∨ l.src = i ∨ l.dst = d ∨ l.dst = o →
      h.hier.parent l.src = h.hier.parent l.dst := by
    intro l m he
    obtain ⟨kind, k1, k2⟩ := z.dfg.kind z.valid m he
    refine hl l m kind k1 ?_
    rcases k2 with k2 | rfl
    · cases kind <;> simp [Kind.isValue, Kind.isStatic] at k2 ⊢
    · rfl
  have at_d : ∀ {n}, h.hier.parent n = some d → regionAfter h p d n = some p := fun hn => if_pos hn
  have at_p : ∀ {n}, h.hier.parent n = some p → regionAfter h p d n = some p := fun hn => by
    unfold regionAfter
    rw [hn]; split <;> rfl
  rcases z.via hm with h3 | ⟨l1, m1, l2, m2, e1, e2, e3, e4⟩ | ⟨l1, m1, l2, m2, e1, e2, e3, e4⟩
  · have := hl l h3 kind (by rw [← z.srcKind_g h1]; exact hk) hs
    unfold regionAfter
    rw [this]
  · have k1 := at_ l1 m1 (.inr (.inr (.inl e2)))
    have k2 := at_ l2 m2 (.inr (.inl e3))
    rw [e1, e2, z.dfg.parent] at k1
    rw [e3, e4, z.dfg.parentI z.tree] at k2
    rw [at_p k1, at_d k2.symm]
  · have k1 := at_ l1 m1 (.inr (.inr e2))
    have k2 := at_ l2 m2 (.inl e3)
    rw [e3, e4, z.dfg.parent] at k2
    rw [at_p k2.symm]
    rw [e1] at k1
    rcases e2 with e2 | e2
    · rw [e2, z.dfg.parent] at k1; exact at_p k1
    · rw [e2, z.dfg.parentO z.tree] at k1; exact at_d k1

theorem up_ne {n q : Nat} (hn : n ≠ d ∧ n ≠ i ∧ n ≠ o) (hq : h.hier.parent n = some q) (hqd : q ≠ d) :
    g.hier.parent n = some q := by
  rw [z.up_of hn hq, if_neg hqd]

/-- Where a node is when further nodes are dissolved. -/
theorem lifted {D : Nat → Prop} (hd : ¬ D d) {n q : Nat} (hn : n ≠ d ∧ n ≠ i ∧ n ≠ o) :
    Lifted D g n q ↔ Lifted (fun m => m = d ∨ D m) h n q := by
  constructor
  · intro hh
    have key : ∀ n q, Lifted D g n q → n ≠ d ∧ n ≠ i ∧ n ≠ o → Lifted (fun m => m = d ∨ D m) h n q := by
      intro n q hh
      induction hh with
      | @here n q hp hq =>
        intro hn
        rw [z.up hn] at hp
        unfold regionAfter at hp
        by_cases hpd : h.hier.parent n = some d
        · rw [if_pos hpd] at hp
          cases hp
          exact .up hpd (.inl rfl) (.here z.dfg.parent (by rintro (e | e); exact z.pd e; exact hq e))
        · rw [if_neg hpd] at hp
          exact .here hp (by
            rintro (e | e)
            · exact hpd (e ▸ hp)
            · exact hq e)
      | @up n m q hp hm hl ih =>
        intro hn
        rw [z.up hn] at hp
        unfold regionAfter at hp
        by_cases hpd : h.hier.parent n = some d
        · rw [if_pos hpd] at hp
          cases hp
          exact .up hpd (.inl rfl) (.up z.dfg.parent (.inr hm) (ih z.p3))
        · rw [if_neg hpd] at hp
          exact .up hp (.inr hm) (ih ⟨fun e => hpd (e ▸ hp), z.not_in_io hp⟩)
    exact key n q hh hn
  · intro hh
    have key : ∀ n q, Lifted (fun m => m = d ∨ D m) h n q →
        (n ≠ d ∧ n ≠ i ∧ n ≠ o → Lifted D g n q) ∧
        (n = d → (q = p ∧ ¬ D p) ∨ (D p ∧ Lifted D g p q)) := by
      intro n q hh
      induction hh with
      | @here n q hp hq =>
        refine ⟨fun hn => .here (z.up_ne hn hp ?_) (fun e => hq (.inr e)), ?_⟩
        · exact fun e => hq (.inl e)
        · rintro rfl
          rw [z.dfg.parent] at hp; cases hp
          exact .inl ⟨rfl, fun e => hq (.inr e)⟩
      | @up n m q hp hm hl ih =>
        constructor
        · intro hn
          by_cases hmd : m = d
          · subst hmd
            have hpg : g.hier.parent n = some p := by rw [z.up hn]; exact if_pos hp
            rcases ih.2 rfl with ⟨rfl, hnp⟩ | ⟨hDp, hlp⟩
            · exact .here hpg hnp
            · exact .up hpg hDp hlp
          · have hDm := hm.resolve_left hmd
            exact .up (z.up_ne hn hp hmd) hDm (ih.1 ⟨hmd, z.not_in_io hp⟩)
        · rintro rfl
          rw [z.dfg.parent] at hp; cases hp
          have hDp := hm.resolve_left z.pd
          exact .inr ⟨hDp, ih.1 z.p3⟩
    exact (key n q hh).1 hn

/-- The input and output of the other DFG nodes are the same. -/
theorem take_two {m : Nat} (hm : m ≠ d) (hl : h.live m = true) {s : Types.Signature} (hop : h.ops m = .dfg s) :
    (g.children m).take 2 = (h.children m).take 2 := by
  by_cases hp : m = p
  · subst hp
    have hc := z.valid.children m hl
    unfold ChildrenOk at hc
    rw [hop] at hc
    simp only [body] at hc
    obtain ⟨i', o', rest', k1, k2, k3, _⟩ := hc
    rw [z.inl.inside, k1]
    have e1 : i' ≠ d := by rintro rfl; rw [z.dfg.op] at k2; cases k2
    have e2 : o' ≠ d := by rintro rfl; rw [z.dfg.op] at k3; cases k3
    simp [e1, e2]
  · rw [z.inl.others m hp hm]

end Dissolved

/-! ## The loop -/

theorem inlined_all (ds : List Nat) : ∀ {h : Hugr Ops.Op Meta}, IsTree h → Valid C h → LinksLocal h →
    ds.Nodup → (∀ d ∈ ds, h.live d = true ∧ d ≠ h.entrypoint ∧ d ≠ h.moduleRoot ∧ ∃ sig, h.ops d = .dfg sig) →
    ∃ g, each inlineOne h ds = some g ∧ IsTree g ∧ Valid C g ∧ LinksLocal g ∧
      AllInlined (fun d => d ∈ ds) h g ∧
      ∀ (S : Sem W E) f args outs, Returns h S f args outs ↔ Returns g S f args outs := by
  induction ds with
  | nil =>
    intro h ht hv hl _ _
    refine ⟨h, rfl, ht, hv, hl, ⟨by simp, fun _ _ => rfl, fun n hn q => ?_, rfl, rfl⟩, fun _ _ _ _ => Iff.rfl⟩
    constructor
    · exact fun hp => .here hp (by simp)
    · intro hh
      cases hh with
      | here hp _ => exact hp
      | up _ hd _ => simp at hd
  | cons d ds ih =>
    intro h ht hv hl hnd hds
    obtain ⟨hdl, hde, hdr, sig, hop⟩ := hds d List.mem_cons_self
    obtain ⟨p, hp⟩ := ht.has_parent d hdl hdr
    obtain ⟨i, o, rest, hd⟩ := dfgAt ht hv hp hop
    obtain ⟨g1, h1, h2, h3⟩ := inlined_of ht hv hd hde
    have z : Dissolved C h g1 p d i o sig rest := ⟨ht, hv, h2, hd, h3⟩
    obtain ⟨g1', k1, k2⟩ := C53_local_valid_partial ht hv hl hp hop hde
    rw [h1] at k1; cases k1
    obtain ⟨hd1, hd2⟩ := List.nodup_cons.1 hnd
    have hio : ∀ m ∈ ds, m ≠ d ∧ m ≠ i ∧ m ≠ o := by
      intro m hm
      obtain ⟨_, _, _, s, hs⟩ := hds m (List.mem_cons_of_mem _ hm)
      refine ⟨fun e => hd1 (e ▸ hm), ?_, ?_⟩
      · rintro rfl; rw [hd.opI] at hs; cases hs
      · rintro rfl; rw [hd.opO] at hs; cases hs
    have hchd : (h.children d).take 2 = [i, o] := by rw [hd.children]; rfl
    obtain ⟨g, m1, m2, m3, m4, m5, m6⟩ := ih h2 k2 (z.linksLocal hl) hd2 (by
      intro m hm
      obtain ⟨a1, a2, a4, s, a3⟩ := hds m (List.mem_cons_of_mem _ hm)
      exact ⟨(h3.live m).2 ⟨a1, hio m hm⟩, by rw [h3.entrypoint]; exact a2,
        by rw [h3.moduleRoot]; exact a4, s, by rw [z.op (hio m hm)]; exact a3⟩)
    have hlive : ∀ n, g.live n = true ↔
        h.live n = true ∧ ¬ ∃ d', d' ∈ d :: ds ∧ (n = d' ∨ n ∈ (h.children d').take 2) := by
      intro n
      rw [m5.live, h3.live]
      constructor
      · rintro ⟨⟨a1, a2, a3, a4⟩, a5⟩
        refine ⟨a1, ?_⟩
        rintro ⟨d', hm, hn⟩
        rcases List.mem_cons.1 hm with rfl | hm
        · rw [hchd] at hn
          simp only [List.mem_cons, List.not_mem_nil, or_false] at hn
          tauto
        · obtain ⟨b1, _, _, s, b3⟩ := hds d' (List.mem_cons_of_mem _ hm)
          rw [← z.take_two (hio d' hm).1 b1 b3] at hn
          exact a5 ⟨d', hm, hn⟩
      · rintro ⟨a1, a2⟩
        refine ⟨⟨a1, fun e => a2 ⟨d, List.mem_cons_self, .inl e⟩, fun e => a2 ⟨d, List.mem_cons_self, .inr ?_⟩,
          fun e => a2 ⟨d, List.mem_cons_self, .inr ?_⟩⟩, ?_⟩
        · rw [hchd, e]; simp
        · rw [hchd, e]; simp
        · rintro ⟨d', hm, hn⟩
          obtain ⟨b1, _, _, s, b3⟩ := hds d' (List.mem_cons_of_mem _ hm)
          rw [z.take_two (hio d' hm).1 b1 b3] at hn
          exact a2 ⟨d', List.mem_cons_of_mem _ hm, hn⟩
    have hne : ∀ n, g.live n = true → n ≠ d ∧ n ≠ i ∧ n ≠ o := fun n hn => z.live3 ((m5.live n).1 hn).1 |>.2
    refine ⟨g, ?_, m2, m3, m4, ⟨hlive, fun n hn => ?_, fun n hn q => ?_, by rw [m5.entrypoint, h3.entrypoint],
      by rw [m5.moduleRoot, h3.moduleRoot]⟩, fun S f args outs => ?_⟩
    · unfold each inlineOne
      rw [h1]
      exact m1
    · rw [m5.ops n hn, z.op (hne n hn)]
    · rw [m5.parent n hn q, z.lifted hd1 (hne n hn)]
      simp only [List.mem_cons]
    · rw [C52_inline_returns ht hv hdr hdl h1, m6]

theorem mem_dfgs (ht : IsTree h) {d : Nat} :
    d ∈ ((h.descendants h.entrypoint).drop 1).filter (fun n => isDfg (h.ops n)) ↔ InnerDfg h d := by
  have hen := descendants_enumerates ht ht.entry_live
  have hdfg : isDfg (h.ops d) = true ↔ ∃ sig, h.ops d = .dfg sig := by
    cases h.ops d <;> simp [isDfg]
  have hm := hen.mem d
  have hnd := hen.nodup
  have hhd := hen.head
  rw [List.mem_filter, hdfg]
  unfold InnerDfg
  cases hL : h.descendants h.entrypoint with
  | nil => rw [hL] at hhd; cases hhd
  | cons x xs =>
    rw [hL] at hm hnd hhd
    simp only [List.head?_cons, Option.some.injEq] at hhd
    subst hhd
    rw [List.nodup_cons] at hnd
    simp only [List.drop_succ_cons, List.drop_zero]
    rw [← hm, List.mem_cons]
    constructor
    · rintro ⟨h1, h2⟩
      exact ⟨.inr h1, fun e => hnd.1 (e ▸ h1), h2⟩
    · rintro ⟨h1 | h1, h2, h3⟩
      · exact absurd h1 h2
      · exact ⟨h1, h3⟩

/-- **C57** If the links of values and order of a valid Hugr stay in their regions, then all DFG nodes
inside its entrypoint are inlined: the pass does not panic; the result is a valid Hugr without these
nodes, their inputs and their outputs, in which all other nodes are in the closest node that is left; and
its functions return the same. Missing: links of values between regions, for which the result may be
invalid. -/
theorem C57_inline_dfgs_partial (ht : IsTree h) (hv : Valid C h) (hl : LinksLocal h) :
    ∃ g, inlineDfgs h = some g ∧ IsTree g ∧ Valid C g ∧ AllInlined (InnerDfg h) h g ∧
      (∀ d, ¬ InnerDfg g d) ∧
      ∀ (S : Sem W E) f args outs, Returns h S f args outs ↔ Returns g S f args outs := by
  have hen := descendants_enumerates ht ht.entry_live
  obtain ⟨g, h1, h2, h3, _, h5, h6⟩ := inlined_all (C := C) (W := W) (E := E)
    (((h.descendants h.entrypoint).drop 1).filter fun n => isDfg (h.ops n)) ht hv hl
    ((hen.nodup.sublist (List.drop_sublist 1 _)).filter _) (by
      intro d hd
      obtain ⟨k1, k2, k3⟩ := (mem_dfgs ht).1 hd
      obtain ⟨p, hp⟩ : ∃ p, h.hier.parent d = some p := by
        rcases above_cases k1 with e | ⟨p, hp, _⟩
        · exact absurd e k2
        · exact ⟨p, hp⟩
      refine ⟨(ht.parent_live _ _ hp).1, k2, ?_, k3⟩
      rintro rfl
      rw [ht.root_top] at hp; cases hp)
  have hD : (fun d => d ∈ ((h.descendants h.entrypoint).drop 1).filter fun n => isDfg (h.ops n)) = InnerDfg h := by
    funext d; exact propext (mem_dfgs ht)
  rw [hD] at h5
  refine ⟨g, h1, h2, h3, h5, ?_, h6⟩
  have back : ∀ n q, Lifted (InnerDfg h) h n q → Above h.hier.parent n q := by
    intro n q hh
    induction hh with
    | here hp _ => exact .of_parent hp
    | up hp _ _ ih => exact .step hp ih
  have up : ∀ n e, Above g.hier.parent n e → g.live n = true → Above h.hier.parent n e := by
    intro n e ha
    induction ha with
    | refl => exact fun _ => .refl _
    | @step n p e hp _ ih =>
      intro hn
      exact (back _ _ ((h5.parent n hn p).1 hp)).trans (ih (h2.parent_live _ _ hp).2)
  rintro d ⟨k1, k2, s, k3⟩
  have hdl : g.live d = true := by
    rcases above_cases k1 with e | ⟨p, hp, _⟩
    · exact absurd e k2
    · exact (h2.parent_live _ _ hp).1
  refine ((h5.live d).1 hdl).2 ⟨d, ⟨?_, ?_, s, ?_⟩, .inl rfl⟩
  · rw [← h5.entrypoint]; exact up _ _ k1 hdl
  · rw [← h5.entrypoint]; exact k2
  · rw [← h5.ops d hdl]; exact k3

/-! ## A concrete case -/

/-- The DFG node 4 contains another (7), which contains a node (10). -/
def nestedHistory : List (Cmd Ops.Op String) :=
  [ .addNodeWithParent 1 0 (.funcDefn "f" ⟨[], ⟨[bool], [bool, bool]⟩⟩),
    .addNodeWithParent 2 1 (.input [bool]), .addNodeWithParent 3 1 (.output [bool, bool]),
    .addNodeWithParent 4 1 (.dfg ⟨[bool], [bool, bool]⟩),
    .addNodeWithParent 5 4 (.input [bool]), .addNodeWithParent 6 4 (.output [bool, bool]),
    .addNodeWithParent 7 4 (.dfg ⟨[bool], [bool, bool]⟩),
    .addNodeWithParent 8 7 (.input [bool]), .addNodeWithParent 9 7 (.output [bool, bool]),
    .addNodeWithParent 10 7 (.tag 1 [[], []]),
    .connect ⟨2, 0, 4, 0⟩, .connect ⟨5, 0, 7, 0⟩, .connect ⟨8, 0, 9, 0⟩, .connect ⟨10, 0, 9, 1⟩,
    .connect ⟨7, 0, 6, 0⟩, .connect ⟨7, 1, 6, 1⟩, .connect ⟨4, 0, 3, 0⟩, .connect ⟨4, 1, 3, 1⟩,
    .setEntrypoint 1 ]

theorem nested_valid : IsTree (built nestedHistory) ∧ Valid anaContext (built nestedHistory) ∧
    LinksLocal (built nestedHistory) := by
  obtain ⟨h1, h2⟩ := built_ok nestedHistory (by decide +kernel) (by decide +kernel)
  refine ⟨h1, (C47_validate_iff_partial _ _ h1 h2).1 (by decide +kernel), ?_⟩
  have : ∀ l ∈ (built nestedHistory).links,
      (built nestedHistory).hier.parent l.src = (built nestedHistory).hier.parent l.dst := by decide +kernel
  exact fun l hl _ _ _ => this l hl

/-- The hypotheses are met, and this is the result. -/
example : (∃ g, inlineDfgs (built nestedHistory) = some g ∧ Valid anaContext g ∧
      AllInlined (InnerDfg (built nestedHistory)) (built nestedHistory) g) ∧
    (inlineDfgs (built nestedHistory)).map (fun g => (g.children 1, g.links)) =
      some ([2, 3, 10], [⟨2, 0, 3, 0⟩, ⟨10, 0, 3, 1⟩]) := by
  refine ⟨?_, by decide +kernel⟩
  obtain ⟨g, h1, _, h2, h3, _⟩ := C57_inline_dfgs_partial (W := Nat) (E := Nat) nested_valid.1 nested_valid.2.1
    nested_valid.2.2
  exact ⟨g, h1, h2, h3⟩

/-! ## Finding -/

/-- The DFG node 4 contains a conditional (7), in which the input of the function is used. The order that
this needs is given by a link from the input to 4. -/
def lostInCaseHistory : List (Cmd Ops.Op String) :=
  [ .addNodeWithParent 1 0 (.funcDefn "f" ⟨[], ⟨[bool], [bool]⟩⟩),
    .addNodeWithParent 2 1 (.input [bool]), .addNodeWithParent 3 1 (.output [bool]),
    .addNodeWithParent 4 1 (.dfg ⟨[], [bool]⟩),
    .addNodeWithParent 5 4 (.input []), .addNodeWithParent 6 4 (.output [bool]),
    .addNodeWithParent 7 4 (.conditional [[]] [] [bool]),
    .addNodeWithParent 8 7 (.case ⟨[], [bool]⟩),
    .addNodeWithParent 9 8 (.input []), .addNodeWithParent 10 8 (.output [bool]),
    .addNodeWithParent 11 4 (.tag 0 [[]]),
    .connect ⟨2, 0, 10, 0⟩, .connect ⟨2, 1, 4, 0⟩, .connect ⟨11, 0, 7, 0⟩, .connect ⟨7, 0, 6, 0⟩,
    .connect ⟨4, 0, 3, 0⟩ ]

/-- The result of the pass is not valid. -/
def passBreaks (C : Validate.Context) (h : Hugr Ops.Op String) : Bool :=
  match inlineDfgs h with
  | some g => match validate C g with
    | .ok => false
    | _ => true
  | none => false

/-- **C57, finding** The pass can make a valid Hugr invalid: an order link to a DFG node goes only to the
successors of its input, so that a use of an outer value inside a conditional in the DFG node is left
without the order link that validation asks for. -/
theorem C57_lost_order_refuted : IsTree (built lostInCaseHistory) ∧
    Valid anaContext (built lostInCaseHistory) ∧
    ∃ g, inlineDfgs (built lostInCaseHistory) = some g ∧ IsTree g ∧ ¬ Valid anaContext g := by
  obtain ⟨h1, h2⟩ := built_ok lostInCaseHistory (by decide +kernel) (by decide +kernel)
  have hv := (C47_validate_iff_partial _ _ h1 h2).1
    (by decide +kernel : validate anaContext (built lostInCaseHistory) = .ok)
  refine ⟨h1, hv, ?_⟩
  have hone : inlineDfgs (built lostInCaseHistory) = inlineOne (built lostInCaseHistory) 4 := by
    have : ((((built lostInCaseHistory).descendants (built lostInCaseHistory).entrypoint).drop 1).filter
        fun n => isDfg ((built lostInCaseHistory).ops n)) = [4] := by decide +kernel
    unfold inlineDfgs
    rw [this]
    unfold each
    cases inlineOne (built lostInCaseHistory) 4 <;> rfl
  obtain ⟨i, o, rest, g, _, hg, ht, _⟩ := C51_inline h1 hv (p := 1) (d := 4) (by decide +kernel)
    (sig := ⟨[], [bool]⟩) rfl (by decide +kernel)
  have hb : passBreaks anaContext (built lostInCaseHistory) = true := by decide +kernel
  have hr : inlineDfgs (built lostInCaseHistory) = some g := by
    rw [hone]; unfold inlineOne; rw [hg]
  refine ⟨g, hr, ht, fun hvg => ?_⟩
  have := (C47_validate_iff_partial _ _ ht (valid_linksOk ht hvg)).2 hvg
  unfold passBreaks at hb
  rw [hr] at hb
  simp only [this] at hb
  cases hb

end Verif.Patch
