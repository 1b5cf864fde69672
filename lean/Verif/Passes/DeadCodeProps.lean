import Verif.Passes.RemoveNodes

/-!
# C35: dead code elimination keeps exactly what is needed
-/
namespace Verif.Passes

open Verif.Graph

variable {Meta : Type}

/-- In a well-formed Hugr only a given node can be missing. -/
theorem needed_live {h : Hugr Ops.Op Meta} (ht : IsTree h) (hl : LinksOk h)
    {callback : Nat → PreserveNode} {entries : List Nat} {n : Nat}
    (hn : Needed h callback entries n) : h.live n = true ∨ n ∈ entries := by
  have hchild : ∀ p c, c ∈ h.children p → h.live c = true := fun p c hc =>
    (ht.parent_live c p ((ht.child_iff p c).1 hc)).1
  cases hn with
  | entrypoint => exact Or.inl ht.entry_live
  | entry he => exact Or.inr he
  | forced _ hc _ => exact Or.inl (hchild _ _ hc)
  | structural _ hc _ => exact Or.inl (hchild _ _ hc)
  | source hm _ => exact Or.inl (hl _ hm).1
  | consumer hm _ _ => exact Or.inl (hl _ hm).2.2.1

/-- The pass, in terms of the needed nodes. -/
theorem deadCodeElim_spec {h : Hugr Ops.Op Meta} (ht : IsTree h) (hl : LinksOk h) (htag : TagsOk h)
    (callback : Nat → PreserveNode) (entries : List Nat) :
    match deadCodeElim h callback entries with
    | .ok g => (∀ e ∈ entries, h.live e = true) ∧ ∃ R, Removed h R g ∧
        ∀ n, n ∈ R ↔ Above h.hier.parent n h.entrypoint ∧ ¬ Needed h callback entries n
    | .notFound n => n ∈ entries ∧ h.live n = false
    | .panic => False := by
  have hf := findNeeded_spec ht callback entries
  unfold deadCodeElim
  cases hfn : findNeeded h callback entries with
  | panic =>
    rw [hfn] at hf
    obtain ⟨n, h1, h2⟩ := hf
    exact htag n h1 h2
  | notFound n =>
    rw [hfn] at hf
    simp only at hf ⊢
    rcases needed_live ht hl hf.1 with h1 | h1
    · rw [hf.2] at h1; cases h1
    · exact ⟨h1, hf.2⟩
  | ok s =>
    rw [hfn] at hf
    simp only at hf ⊢
    have hen := descendants_enumerates ht ht.entry_live
    have hmem : ∀ n, n ∈ ((h.descendants h.entrypoint).filter fun n => n ∉ s) ↔
        Above h.hier.parent n h.entrypoint ∧ ¬ Needed h callback entries n := by
      intro n
      rw [List.mem_filter, hen.mem]
      simp only [decide_eq_true_eq, hf.1]
    have habove : ∀ a b, Above h.hier.parent a b → h.live b = true → h.live a = true := by
      intro a b hab hb
      cases hab with
      | refl => exact hb
      | step hp _ => exact (ht.parent_live _ _ hp).1
    obtain ⟨g, hg, hrem⟩ := removeNodes_spec ((h.descendants h.entrypoint).filter fun n => n ∉ s) h
      ht.ok (hen.nodup.filter _)
      (fun n hn => habove n _ ((hmem n).1 hn).1 ht.entry_live)
      (fun hn => ((hmem _).1 hn).2 .entrypoint)
    rw [hg]
    simp only
    exact ⟨fun e he => hf.2 e ((hf.1 e).2 (.entry he)), _, hrem, hmem⟩

/-- **C35** The pass succeeds if all the given nodes are in the Hugr; otherwise it names one that is
not, and changes nothing. It never panics. -/
theorem C35_outcome (h : Hugr Ops.Op Meta) (ht : IsTree h) (hl : LinksOk h) (htag : TagsOk h)
    (callback : Nat → PreserveNode) (entries : List Nat) :
    ((∃ g, deadCodeElim h callback entries = .ok g) ∧ ∀ e ∈ entries, h.live e = true) ∨
    ∃ n ∈ entries, h.live n = false ∧ deadCodeElim h callback entries = .notFound n := by
  have hs := deadCodeElim_spec ht hl htag callback entries
  cases hd : deadCodeElim h callback entries with
  | panic => rw [hd] at hs; exact hs.elim
  | notFound n => rw [hd] at hs; exact Or.inr ⟨n, hs.1, hs.2, rfl⟩
  | ok g => rw [hd] at hs; exact Or.inl ⟨⟨g, rfl⟩, hs.1⟩

/-- **C35** Exactly the nodes of the entrypoint region that are not needed are removed; everything
else about the other nodes is as before. -/
theorem C35_removes_exactly (h g : Hugr Ops.Op Meta) (ht : IsTree h) (hl : LinksOk h)
    (htag : TagsOk h) (callback : Nat → PreserveNode) (entries : List Nat)
    (hd : deadCodeElim h callback entries = .ok g) :
    WithoutNodes h
      (fun n => Above h.hier.parent n h.entrypoint ∧ ¬ Needed h callback entries n) g := by
  have hs := deadCodeElim_spec ht hl htag callback entries
  rw [hd] at hs
  obtain ⟨_, R, hrem, hR⟩ := hs
  have hRm : ∀ m, g.live m = true → m ∉ R := fun m hm => ((hrem.live m).1 hm).2
  refine ⟨?_, ?_, ?_, ?_, ?_, ?_, ?_, ?_⟩
  · intro m; rw [hrem.live, hR]
  · intro m p hm
    rw [hrem.parent, hR p]
    exact ⟨fun h1 => ⟨h1.1, h1.2.2⟩, fun h1 => ⟨h1.1, hRm m hm, h1.2⟩⟩
  · intro m hm
    rw [hrem.children, if_neg (hRm m hm)]
    apply List.filter_congr
    intro c hc
    have hcl := (ht.parent_live c m ((ht.child_iff m c).1 hc)).1
    by_cases hcR : c ∈ R
    · have : g.live c ≠ true := fun h1 => hRm c h1 hcR
      simp [hcR, this]
    · have : g.live c = true := (hrem.live c).2 ⟨hcl, hcR⟩
      simp [hcR, this]
  · intro m hm; exact hrem.ops m (hRm m hm)
  · intro m _; exact ⟨by rw [hrem.rest.2.1], by rw [hrem.rest.2.2.1]⟩
  · intro m _; rw [hrem.rest.2.2.2.1]
  · rw [hrem.links]
    apply List.filter_congr
    intro l hlm
    obtain ⟨h1, _, h2, _⟩ := hl l hlm
    have hx : ∀ x, h.live x = true → (g.live x = true ↔ x ∉ R) := fun x hx => by
      rw [hrem.live]; exact ⟨fun h => h.2, fun h => ⟨hx, h⟩⟩
    have hb : ∀ x, h.live x = true → g.live x = decide (x ∉ R) := fun x h1 => by
      rw [Bool.eq_iff_iff, hx x h1]; simp
    rw [hb _ h1, hb _ h2]
    simp
  · exact ⟨hrem.rest.2.2.2.2.1, hrem.rest.2.2.2.2.2⟩

/-- **C35** A needed node keeps all its incoming links, and so the nodes it depends on; and the
consumers of its linear results. A node outside the region keeps all its links with such nodes. -/
theorem C35_dependencies (h g : Hugr Ops.Op Meta) (ht : IsTree h) (hl : LinksOk h)
    (htag : TagsOk h) (callback : Nat → PreserveNode) (entries : List Nat)
    (hd : deadCodeElim h callback entries = .ok g) :
    (∀ n, Needed h callback entries n → g.live n = true ∧
      (g.links.filter fun l => l.dst = n) = h.links.filter fun l => l.dst = n) ∧
    (∀ l ∈ h.links, Needed h callback entries l.src → LinearOut (h.ops l.src) l.srcPort →
      l ∈ g.links ∧ g.live l.dst = true) ∧
    ∀ l ∈ h.links, ¬ Above h.hier.parent l.src h.entrypoint →
      ¬ Above h.hier.parent l.dst h.entrypoint → l ∈ g.links := by
  have hw := C35_removes_exactly h g ht hl htag callback entries hd
  have hs := deadCodeElim_spec ht hl htag callback entries
  rw [hd] at hs
  have hN : ∀ n, Needed h callback entries n → g.live n = true := by
    intro n hn
    rw [hw.live]
    refine ⟨?_, fun h1 => h1.2 hn⟩
    rcases needed_live ht hl hn with h1 | h1
    · exact h1
    · exact hs.1 n h1
  refine ⟨fun n hn => ⟨hN n hn, ?_⟩, ?_, ?_⟩
  · rw [hw.links, List.filter_filter]
    apply List.filter_congr
    intro l hlm
    by_cases hdn : l.dst = n
    · have h1 := hN l.dst (hdn ▸ hn)
      have h2 := hN l.src (.source hlm (hdn ▸ hn))
      rw [h1, h2]; simp
    · simp [hdn]
  · intro l hlm hsn hlin
    have h1 := hN _ hsn
    have h2 := hN _ (.consumer hlm hsn hlin)
    refine ⟨?_, h2⟩
    rw [hw.links, List.mem_filter]
    exact ⟨hlm, by simp [h1, h2]⟩
  · intro l hlm h1 h2
    rw [hw.links, List.mem_filter]
    obtain ⟨h3, _, h4, _⟩ := hl l hlm
    have h5 := (hw.live l.src).2 ⟨h3, fun hc => h1 hc.1⟩
    have h6 := (hw.live l.dst).2 ⟨h4, fun hc => h2 hc.1⟩
    exact ⟨hlm, by simp [h5, h6]⟩

/-- If edges are local, what a needed node is inside of is needed. -/
theorem needed_up {h : Hugr Ops.Op Meta} (ht : IsTree h) (hloc : EdgesLocal h)
    {callback : Nat → PreserveNode} {entries : List Nat} (hopen : EntriesOpen h entries) {n : Nat}
    (hn : Needed h callback entries n) : ∀ p, Above h.hier.parent n p →
      Above h.hier.parent p h.entrypoint → Needed h callback entries p := by
  have hac := ht.acyclic
  have hup : ∀ {c n p : Nat}, c ∈ h.children n → Above h.hier.parent c p → c = p ∨
      Above h.hier.parent n p := by
    intro c n p hc hab
    cases hab with
    | refl => exact Or.inl rfl
    | step hp hab =>
      rw [(ht.child_iff n c).1 hc] at hp; cases hp
      exact Or.inr hab
  induction hn with
  | entrypoint =>
    intro p h1 h2
    rw [Above.antisymm hac h2 h1]; exact .entrypoint
  | entry he =>
    intro p h1 h2
    have key : ∀ a b, Above h.hier.parent a b → a ∈ entries → Above h.hier.parent b h.entrypoint →
        Needed h callback entries b := by
      intro a b hab
      induction hab with
      | refl => intro ha _; exact .entry ha
      | step hp hab ih =>
        intro ha hb
        rcases hopen _ ha _ hp (hab.trans hb) with h3 | h3
        · subst h3
          rw [Above.antisymm hac hb hab]; exact .entrypoint
        · exact ih h3 hb
    exact key _ p h1 he h2
  | forced hn' hc hf ih =>
    intro p h1 h2
    rcases hup hc h1 with rfl | h3
    · exact .forced hn' hc hf
    · exact ih p h3 h2
  | structural hn' hc hf ih =>
    intro p h1 h2
    rcases hup hc h1 with rfl | h3
    · exact .structural hn' hc hf
    · exact ih p h3 h2
  | @source l hlm hn' ih =>
    intro p h1 h2
    generalize hsrc : l.src = a at h1
    cases h1 with
    | refl => exact hsrc ▸ .source hlm hn'
    | @step _ q _ hp hab =>
      subst hsrc
      rcases hloc.source l hlm q hp with h3 | ⟨i, o, r, c, hop, hqc, h3⟩
      · exact ih p (h3.trans hab) h2
      · cases hab with
        | refl =>
          cases h2 with
          | refl => exact .entrypoint
          | step hq2 h4 =>
            rw [hqc] at hq2; cases hq2
            exact .structural (ih c h3 h4) ((ht.child_iff c _).2 hqc)
              (Or.inr (Or.inl ⟨i, o, r, hop⟩))
        | step hq2 h4 =>
          rw [hqc] at hq2; cases hq2
          exact ih p (h3.trans h4) h2
  | @consumer l hlm hn' hlin ih =>
    intro p h1 h2
    generalize hdst : l.dst = a at h1
    cases h1 with
    | refl => exact hdst ▸ .consumer hlm hn' hlin
    | step hp hab =>
      subst hdst
      rw [hloc.linear l hlm hlin] at hp
      exact ih p (.step hp hab) h2

/-- **C35** In a Hugr with the edges of a valid one, what a needed node is inside of is kept too, and
the result is a tree whose links connect existing ports. Missing for the full property: given nodes
inside nodes that are not given (`C35_given_node_refuted`). -/
theorem C35_ancestors_partial (h g : Hugr Ops.Op Meta) (ht : IsTree h) (hl : LinksOk h)
    (htag : TagsOk h) (hloc : EdgesLocal h) (callback : Nat → PreserveNode) (entries : List Nat)
    (hopen : EntriesOpen h entries) (hd : deadCodeElim h callback entries = .ok g) :
    IsTree g ∧ LinksOk g ∧ ∀ n p, Needed h callback entries n → Above h.hier.parent n p →
      g.live p = true := by
  have hw := C35_removes_exactly h g ht hl htag callback entries hd
  have hs := deadCodeElim_spec ht hl htag callback entries
  rw [hd] at hs
  obtain ⟨hlive, R, hrem, hR⟩ := hs
  have hac := ht.acyclic
  refine ⟨?_, ?_, ?_⟩
  · refine removed_tree ht hrem (fun h1 => ((hR _).1 h1).2 .entrypoint) ?_ ?_
    · intro h1
      obtain ⟨h2, h3⟩ := (hR _).1 h1
      rw [h2.eq_of_top ht.root_top] at h3
      exact h3 .entrypoint
    · intro c p hp _ hpR
      obtain ⟨h1, h2⟩ := (hR p).1 hpR
      exact (hR c).2 ⟨.step hp h1, fun hc => h2 (needed_up ht hloc hopen hc p (.of_parent hp) h1)⟩
  · intro l hlm
    rw [hw.links, List.mem_filter] at hlm
    obtain ⟨h1, h2⟩ := hlm
    simp only [Bool.and_eq_true] at h2
    obtain ⟨_, h4, _, h6⟩ := hl l h1
    refine ⟨h2.1, ?_, h2.2, ?_⟩
    · rw [(hw.ports _ h2.1).2]; exact h4
    · rw [(hw.ports _ h2.2).1]; exact h6
  · intro n p hn hab
    rw [hw.live]
    have hpl : h.live p = true := by
      have hnl : h.live n = true := by
        rcases needed_live ht hl hn with h1 | h1
        · exact h1
        · exact hlive n h1
      clear hw hn
      induction hab with
      | refl => exact hnl
      | step hp _ ih => exact ih (ht.parent_live _ _ hp).2
    exact ⟨hpl, fun h1 => h1.2 (needed_up ht hloc hopen hn p hab h1.1)⟩

/-- The operations that the default callback must keep: calls, control-flow graphs and loops. -/
def MayNotTerminate (op : Ops.Op) : Prop :=
  (∃ s a i, op = .call s a i) ∨ (∃ s, op = .cfg s) ∨ ∃ i o r, op = .tailLoop i o r

theorem defaultFor_eq (h : Hugr Ops.Op Meta) (n : Nat) :
    (MayNotTerminate (h.ops n) ∧ PreserveNode.defaultFor h n = .mustKeep) ∨
    (¬ MayNotTerminate (h.ops n) ∧ PreserveNode.defaultFor h n = .deferToChildren) := by
  unfold PreserveNode.defaultFor MayNotTerminate
  cases h.ops n <;> simp

theorem default_forced {h : Hugr Ops.Op Meta} (ht : IsTree h) (n : Nat) :
    Forced h.children (PreserveNode.defaultFor h) n ↔
      ∃ m, Above h.hier.parent m n ∧ MayNotTerminate (h.ops m) := by
  constructor
  · intro hf
    induction hf with
    | keep hk =>
      rcases defaultFor_eq h _ with h1 | h1
      · exact ⟨_, .refl _, h1.1⟩
      · rw [h1.2] at hk; cases hk
    | child _ hc _ ih =>
      obtain ⟨m, h1, h2⟩ := ih
      exact ⟨m, h1.trans (.of_parent ((ht.child_iff _ _).1 hc)), h2⟩
  · rintro ⟨m, hm, hop⟩
    have key : ∀ a b, Above h.hier.parent a b → Forced h.children (PreserveNode.defaultFor h) a →
        Forced h.children (PreserveNode.defaultFor h) b := by
      intro a b hab
      induction hab with
      | refl => exact id
      | step hp _ ih =>
        intro hf
        apply ih
        rcases defaultFor_eq h _ with h1 | h1
        · exact .keep h1.2
        · exact .child h1.2 ((ht.child_iff _ _).2 hp) hf
    apply key m n hm
    rcases defaultFor_eq h m with h1 | h1
    · exact .keep h1.2
    · exact absurd hop h1.1

/-- **C35** By default every call, control-flow graph and loop of the entrypoint region is kept,
with its operation and all its incoming links, at any depth: with all the nodes around it. -/
theorem C35_default_keeps (h g : Hugr Ops.Op Meta) (ht : IsTree h) (hl : LinksOk h)
    (htag : TagsOk h) (entries : List Nat)
    (hd : deadCodeElim h (PreserveNode.defaultFor h) entries = .ok g)
    (m : Nat) (hm : Above h.hier.parent m h.entrypoint) (hop : MayNotTerminate (h.ops m))
    (n : Nat) (hn : Above h.hier.parent m n) (hne : Above h.hier.parent n h.entrypoint) :
    g.live n = true ∧ g.ops n = h.ops n ∧
    (g.links.filter fun l => l.dst = n) = h.links.filter fun l => l.dst = n := by
  have key : ∀ a b, Above h.hier.parent a b → b = h.entrypoint → Above h.hier.parent m a →
      Needed h (PreserveNode.defaultFor h) entries a := by
    intro a b hab
    induction hab with
    | refl => rintro rfl _; exact .entrypoint
    | step hp _ ih =>
      intro hb hma
      exact .forced (ih hb (hma.trans (.of_parent hp))) ((ht.child_iff _ _).2 hp)
        ((default_forced ht _).2 ⟨m, hma, hop⟩)
  have hnd := key n _ hne rfl hn
  obtain ⟨h1, h2⟩ := (C35_dependencies h g ht hl htag _ entries hd).1 n hnd
  exact ⟨h1, (C35_removes_exactly h g ht hl htag _ entries hd).ops n h1, h2⟩

/-- **C35** By default a nested region with no call, control-flow graph or loop in it goes, unless
something that stays uses it: then it is given, structural, or linked to a needed node. -/
theorem C35_default_removes (h g : Hugr Ops.Op Meta) (ht : IsTree h) (hl : LinksOk h)
    (htag : TagsOk h) (entries : List Nat)
    (hd : deadCodeElim h (PreserveNode.defaultFor h) entries = .ok g)
    (n : Nat) (hn : Above h.hier.parent n h.entrypoint) (hne : n ≠ h.entrypoint)
    (hcalm : ∀ m, Above h.hier.parent m n → ¬ MayNotTerminate (h.ops m))
    (hgiven : n ∉ entries) (hstr : ¬ Structural (h.ops n))
    (hout : ∀ l ∈ h.links, l.src = n → g.live l.dst = false)
    (hin : ∀ l ∈ h.links, l.dst = n → ¬ LinearOut (h.ops l.src) l.srcPort) :
    g.live n = false := by
  have hdep := (C35_dependencies h g ht hl htag _ entries hd).1
  cases hg : g.live n with
  | false => rfl
  | true =>
    exfalso
    have hnn : Needed h (PreserveNode.defaultFor h) entries n := by
      have := ((C35_removes_exactly h g ht hl htag _ entries hd).live n).1 hg
      exact Classical.byContradiction fun hx => this.2 ⟨hn, hx⟩
    generalize hx : n = x at hnn
    cases hnn with
    | entrypoint => exact hne hx
    | entry he => exact hgiven (hx ▸ he)
    | forced _ _ hf =>
      obtain ⟨m, h1, h2⟩ := (default_forced ht _).1 hf
      exact hcalm m (hx ▸ h1) h2
    | structural _ _ hs => exact hstr (hx ▸ hs)
    | source hm hN =>
      have := hout _ hm hx.symm
      rw [(hdep _ hN).1] at this; cases this
    | consumer hm _ hlin => exact hin _ hm hx.symm hlin

/-! ## Example -/

/-- A history that succeeds. -/
def built (cmds : List (Cmd Ops.Op String)) : Hugr Ops.Op String :=
  (run opsInfo.toOpInfo (Hugr.new opsInfo.toOpInfo .module) cmds).getD
    (Hugr.new opsInfo.toOpInfo .module)

theorem built_ok (cmds : List (Cmd Ops.Op String))
    (hs : (run opsInfo.toOpInfo (Hugr.new opsInfo.toOpInfo .module) cmds).isSome = true)
    (hd : AllDocumented opsInfo.toOpInfo (Hugr.new opsInfo.toOpInfo .module) cmds) :
    IsTree (built cmds) ∧ LinksOk (built cmds) := by
  obtain ⟨h, hr⟩ := Option.isSome_iff_exists.1 hs
  have : built cmds = h := by simp [built, hr]
  rw [this]
  exact C20_tree_partial opsInfo.toOpInfo .module cmds h hr hd

/-- A type whose values may not be discarded, and one whose values may. -/
def qubit : Types.Ty := .ext "prelude" "qubit" [] .linear
def bool : Types.Ty := .sumUnit 2

/-- A function that passes on a qubit through an operation, and a nested graph (4) whose result is
not used. -/
def dceHistory : List (Cmd Ops.Op String) :=
  [ .addNodeWithParent 1 0 (.funcDefn "main" ⟨[], ⟨[qubit], [qubit]⟩⟩),
    .addNodeWithParent 2 1 (.input [qubit]), .addNodeWithParent 3 1 (.output [qubit]),
    .addNodeWithParent 4 1 (.dfg ⟨[], [bool]⟩),
    .addNodeWithParent 5 4 (.input []), .addNodeWithParent 6 4 (.output [bool]),
    .addNodeWithParent 7 4 (.tag 1 [[], []]), .connect ⟨7, 0, 6, 0⟩,
    .addNodeWithParent 8 1 (.extensionOp "q" "h" [] ⟨[qubit], [qubit]⟩),
    .connect ⟨2, 0, 8, 0⟩, .connect ⟨8, 0, 3, 0⟩, .connect ⟨2, 1, 8, 1⟩, .setEntrypoint 1 ]

/-- The nodes left by the pass. -/
def dceNodes (h : Hugr Ops.Op String) (callback : Nat → PreserveNode) (entries : List Nat) :
    Option (List Nat) :=
  match deadCodeElim h callback entries with
  | .ok g => some g.nodes
  | _ => none

/-- The unused graph is removed, unless it is given or something in it must be kept. In the last
case `C35_ancestors_partial` does not apply: the graph around the given node is removed. -/
example :
    dceNodes (built dceHistory) (PreserveNode.defaultFor (built dceHistory)) [] =
      some [0, 1, 2, 3, 8] ∧
    dceNodes (built dceHistory) (PreserveNode.defaultFor (built dceHistory)) [4] =
      some [0, 1, 2, 3, 4, 5, 6, 7, 8] ∧
    dceNodes (built dceHistory) (fun n => if n = 5 then .mustKeep else .deferToChildren) [] =
      some [0, 1, 2, 3, 4, 5, 6, 7, 8] ∧
    dceNodes (built dceHistory) (fun n => if n = 5 then .mustKeep else .canRemoveIgnoringChildren) [] =
      some [0, 1, 2, 3, 8] ∧
    dceNodes (built dceHistory) (PreserveNode.defaultFor (built dceHistory)) [7] =
      some [0, 1, 2, 3, 7, 8] := by decide +kernel

/-- The example meets the hypotheses of the theorems. -/
example : IsTree (built dceHistory) ∧ LinksOk (built dceHistory) ∧ TagsOk (built dceHistory) ∧
    EdgesLocal (built dceHistory) ∧ EntriesOpen (built dceHistory) [4] := by
  obtain ⟨h1, h2⟩ := built_ok dceHistory (by decide +kernel) (by decide +kernel)
  refine ⟨h1, h2, ?_, ⟨?_, ?_⟩, ?_⟩
  · intro n hn
    have hlt : n < 9 := h1.in_range n hn
    have key : ∀ n < 9, ((built dceHistory).ops n).dataflowSignature ≠ .panic := by decide +kernel
    exact key n hlt
  · have hp : ∀ l ∈ (built dceHistory).links, ∀ q ∈ (built dceHistory).hier.parent l.src,
        (built dceHistory).hier.parent l.dst = some q := by decide +kernel
    intro l hl q hq
    exact Or.inl (.of_parent (hp l hl q hq))
  · have hp : ∀ l ∈ (built dceHistory).links,
        (built dceHistory).hier.parent l.dst = (built dceHistory).hier.parent l.src := by
      decide +kernel
    intro l hl _
    exact hp l hl
  · intro e he p hp _
    simp only [List.mem_singleton] at he
    subst he
    have : (built dceHistory).hier.parent 4 = some 1 := by decide +kernel
    rw [this] at hp; cases hp
    left; decide +kernel

/-- A function that calls itself inside a nested graph (4) whose result is not used, next to another
such graph (8) without a call. -/
def callHistory : List (Cmd Ops.Op String) :=
  [ .addNodeWithParent 1 0 (.funcDefn "main" ⟨[], ⟨[], [bool]⟩⟩),
    .addNodeWithParent 2 1 (.input []), .addNodeWithParent 3 1 (.output [bool]),
    .addNodeWithParent 4 1 (.dfg ⟨[], [bool]⟩),
    .addNodeWithParent 5 4 (.input []), .addNodeWithParent 6 4 (.output [bool]),
    .addNodeWithParent 7 4 (.call ⟨[], ⟨[], [bool]⟩⟩ [] ⟨[], [bool]⟩), .connect ⟨1, 0, 7, 0⟩,
    .connect ⟨7, 0, 6, 0⟩,
    .addNodeWithParent 8 1 (.dfg ⟨[], [bool]⟩), .addNodeWithParent 9 8 (.input []),
    .addNodeWithParent 10 8 (.output [bool]), .addNodeWithParent 11 8 (.tag 1 [[], []]),
    .connect ⟨11, 0, 10, 0⟩, .addNodeWithParent 12 1 (.tag 1 [[], []]), .connect ⟨12, 0, 3, 0⟩,
    .setEntrypoint 1 ]

/-- The graph with the call is kept, the other one goes; the hypotheses of `C35_default_keeps` are
met with `m` the call and `n` the graph, those of `C35_default_removes` with the other graph. -/
example : dceNodes (built callHistory) (PreserveNode.defaultFor (built callHistory)) [] =
      some [0, 1, 2, 3, 4, 5, 6, 7, 12] ∧
    IsTree (built callHistory) ∧ LinksOk (built callHistory) ∧ TagsOk (built callHistory) ∧
    MayNotTerminate ((built callHistory).ops 7) ∧
    Above (built callHistory).hier.parent 7 4 ∧
    Above (built callHistory).hier.parent 4 (built callHistory).entrypoint ∧
    (built callHistory).links.filter (fun l => l.src = 8 || l.dst = 8) = [] := by
  obtain ⟨h1, h2⟩ := built_ok callHistory (by decide +kernel) (by decide +kernel)
  refine ⟨by decide +kernel, h1, h2, ?_, ?_, .of_parent (by decide +kernel),
    .of_parent (by decide +kernel), by decide +kernel⟩
  · intro n hn
    have hlt : n < 13 := h1.in_range n hn
    have key : ∀ n < 13, ((built callHistory).ops n).dataflowSignature ≠ .panic := by decide +kernel
    exact key n hlt
  · have : PreserveNode.defaultFor (built callHistory) 7 = .mustKeep := by decide +kernel
    rcases defaultFor_eq (built callHistory) 7 with h | h
    · exact h.1
    · rw [h.2] at this; cases this

/-! ## Findings -/

/-- **C35** Finding: a node given to the pass can lose the graph it is in. Here node 7 is given and
kept, but it has no parent any more: the result is not a tree. -/
theorem C35_given_node_refuted :
    ∃ g, deadCodeElim (built dceHistory) (PreserveNode.defaultFor (built dceHistory)) [7] = .ok g ∧
      g.live 7 = true ∧ g.hier.parent 7 = none ∧ ¬ IsTree g := by
  have hs : ∃ g, deadCodeElim (built dceHistory) (PreserveNode.defaultFor (built dceHistory)) [7] =
      .ok g ∧ g.live 7 = true ∧ g.hier.parent 7 = none ∧ g.moduleRoot = 0 :=
    ⟨_, rfl, by decide +kernel, by decide +kernel, by decide +kernel⟩
  obtain ⟨g, h1, h2, h3, h4⟩ := hs
  refine ⟨g, h1, h2, h3, fun ht => ?_⟩
  obtain ⟨p, hp⟩ := ht.has_parent 7 h2 (by rw [h4]; decide)
  rw [h3] at hp; cases hp

/-- A function that calls the function value it is given and drops the result. -/
def indirectHistory : List (Cmd Ops.Op String) :=
  [ .addNodeWithParent 1 0 (.funcDefn "main" ⟨[], ⟨[Ops.functionOf ⟨[], [bool]⟩], []⟩⟩),
    .addNodeWithParent 2 1 (.input [Ops.functionOf ⟨[], [bool]⟩]),
    .addNodeWithParent 3 1 (.output []),
    .addNodeWithParent 4 1 (.callIndirect ⟨[], [bool]⟩), .connect ⟨2, 0, 4, 0⟩,
    .setEntrypoint 1 ]

/-- **C35** Finding: the default callback is documented as conservative and keeps all calls, but
indirect calls, which need not terminate either, are removed if their results are not used. -/
theorem C35_indirect_call_removed :
    (built indirectHistory).live 4 = true ∧
    dceNodes (built indirectHistory) (PreserveNode.defaultFor (built indirectHistory)) [] =
      some [0, 1, 2, 3] := by decide +kernel

end Verif.Passes
