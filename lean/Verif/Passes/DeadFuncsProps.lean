import Verif.Passes.DeadFuncsLemmas
import Verif.Passes.DeadCodeProps
import Mathlib.Tactic.FinCases

/-!
# C36: dead function removal keeps exactly the functions in use
-/
namespace Verif.Passes

open Verif.Graph

variable {Meta : Type}

theorem above_live {h : Hugr Ops.Op Meta} (ht : IsTree h) {a b : Nat}
    (hab : Above h.hier.parent a b) (hb : h.live b = true) : h.live a = true := by
  cases hab with
  | refl => exact hb
  | step hp _ => exact (ht.parent_live _ _ hp).1

/-- A node at module level has nothing at module level above it but itself. -/
theorem above_module_level {h : Hugr Ops.Op Meta} (ht : IsTree h) {a b : Nat}
    (ha : h.hier.parent a = some h.moduleRoot) (hb : h.hier.parent b = some h.moduleRoot)
    (hab : Above h.hier.parent a b) : a = b := by
  cases hab with
  | refl => rfl
  | step hp hpb =>
    rw [ha] at hp; cases hp
    have := hpb.eq_of_top ht.root_top
    rw [← this, ht.root_top] at hb
    cases hb

/-- Two nodes at module level around the same node. -/
theorem module_level_unique {h : Hugr Ops.Op Meta} (ht : IsTree h) {n a b : Nat}
    (ha : h.hier.parent a = some h.moduleRoot) (hb : h.hier.parent b = some h.moduleRoot)
    (hna : Above h.hier.parent n a) (hnb : Above h.hier.parent n b) : a = b := by
  induction hna with
  | refl => exact above_module_level ht ha hb hnb
  | step hp hpa ih =>
    cases hnb with
    | refl => exact (above_module_level ht hb ha (.step hp hpa)).symm
    | step hp' hpb =>
      rw [hp] at hp'; cases hp'
      exact ih ha hpb

theorem removeSubtrees_spec (F : List Nat) (h : Hugr Ops.Op Meta) (ht : IsTree h) (hl : LinksOk h)
    (hF : F.Nodup) (hp : ∀ f ∈ F, h.hier.parent f = some h.moduleRoot)
    (he : ∀ f ∈ F, ¬ Above h.hier.parent h.entrypoint f) :
    ∃ g, removeSubtrees h F = some g ∧ IsTree g ∧ LinksOk g ∧
      WithoutNodes h (fun n => ∃ f ∈ F, Above h.hier.parent n f) g := by
  induction F generalizing h with
  | nil =>
    refine ⟨h, rfl, ht, hl, ?_, ?_, ?_, fun _ _ => rfl, fun _ _ => ⟨rfl, rfl⟩, fun _ _ => rfl, ?_,
      rfl, rfl⟩
    · intro m; simp
    · intro m p _; simp
    · intro m _
      symm
      rw [List.filter_eq_self]
      intro c hc
      exact (ht.parent_live c m ((ht.child_iff m c).1 hc)).1
    · symm
      rw [List.filter_eq_self]
      intro l hm
      simp only [Bool.and_eq_true]
      exact ⟨(hl l hm).1, (hl l hm).2.2.1⟩
  | cons f F ih =>
    rw [List.nodup_cons] at hF
    have hpf := hp f (by simp)
    have hfr : f ≠ h.moduleRoot := by rintro rfl; rw [ht.root_top] at hpf; cases hpf
    have hc := C22_remove_subtree opsInfo.toOpInfo h ht hl f
    obtain ⟨g1, hg1⟩ := hc.1.2 ⟨(ht.parent_live _ _ hpf).1, he f (by simp)⟩
    obtain ⟨hw, hl1, ht1⟩ := hc.2 g1 hg1
    have ht1 := ht1 hfr
    have hstay : ∀ m p, g1.live m = true → h.hier.parent m = some p → g1.live p = true := by
      intro m p hm hmp
      rw [hw.live]
      exact ⟨(ht.parent_live m p hmp).2, fun ha => ((hw.live m).1 hm).2 (.step hmp ha)⟩
    have hab : ∀ m x, g1.live m = true →
        (Above g1.hier.parent m x ↔ Above h.hier.parent m x) := by
      intro m x hm
      constructor
      · intro ha
        induction ha with
        | refl => exact .refl _
        | step hmp _ ih' =>
          exact .step ((hw.parent _ hm) ▸ hmp) (ih' (ht1.parent_live _ _ hmp).2)
      · intro ha
        induction ha with
        | refl => exact .refl _
        | step hmp _ ih' =>
          exact .step ((hw.parent _ hm).trans hmp) (ih' (hstay _ _ hm hmp))
    have hFlive : ∀ f' ∈ F, g1.live f' = true := by
      intro f' hf'
      have hpf' := hp f' (List.mem_cons_of_mem _ hf')
      rw [hw.live]
      refine ⟨(ht.parent_live _ _ hpf').1, fun ha => ?_⟩
      have := above_module_level ht hpf' hpf ha
      exact hF.1 (this ▸ hf')
    obtain ⟨g, hg, htg, hlg, hwg⟩ := ih g1 ht1 hl1 hF.2
      (fun f' hf' => by
        rw [hw.parent f' (hFlive f' hf'), hw.roots.1]; exact hp f' (List.mem_cons_of_mem _ hf'))
      (fun f' hf' => by
        rw [hw.roots.2]
        intro ha
        refine he f' (List.mem_cons_of_mem _ hf') ((hab _ _ ?_).1 ha)
        have := ht1.entry_live
        rw [hw.roots.2] at this; exact this)
    have hlive : ∀ m, g.live m = true ↔
        h.live m = true ∧ ¬ ∃ f' ∈ f :: F, Above h.hier.parent m f' := by
      intro m
      rw [hwg.live]
      constructor
      · rintro ⟨h1, h2⟩
        refine ⟨((hw.live m).1 h1).1, ?_⟩
        rintro ⟨f', hf', ha⟩
        rcases List.mem_cons.1 hf' with rfl | hf'
        · exact ((hw.live m).1 h1).2 ha
        · exact h2 ⟨f', hf', (hab m f' h1).2 ha⟩
      · rintro ⟨h1, h2⟩
        have h3 : g1.live m = true := (hw.live m).2 ⟨h1, fun ha => h2 ⟨f, by simp, ha⟩⟩
        refine ⟨h3, ?_⟩
        rintro ⟨f', hf', ha⟩
        exact h2 ⟨f', List.mem_cons_of_mem _ hf', (hab m f' h3).1 ha⟩
    have hsub : ∀ m, g.live m = true → g1.live m = true := fun m hm => ((hwg.live m).1 hm).1
    refine ⟨g, ?_, htg, hlg, hlive, ?_, ?_, ?_, ?_, ?_, ?_, ?_⟩
    · unfold removeSubtrees
      rw [hg1]; exact hg
    · intro m p hm
      have hm1 := hsub m hm
      rw [hwg.parent m p hm, hw.parent m hm1]
      constructor
      · rintro ⟨h1, h2⟩
        have hp1 := hstay m p hm1 h1
        refine ⟨h1, ?_⟩
        rintro ⟨f', hf', ha⟩
        rcases List.mem_cons.1 hf' with rfl | hf'
        · exact ((hw.live p).1 hp1).2 ha
        · exact h2 ⟨f', hf', (hab p f' hp1).2 ha⟩
      · rintro ⟨h1, h2⟩
        have hp1 := hstay m p hm1 h1
        refine ⟨h1, ?_⟩
        rintro ⟨f', hf', ha⟩
        exact h2 ⟨f', List.mem_cons_of_mem _ hf', (hab p f' hp1).1 ha⟩
    · intro m hm
      rw [hwg.children m hm, hw.children m (hsub m hm), List.filter_filter]
      apply List.filter_congr
      intro c hc
      by_cases hgc : g.live c = true
      · have : c ≠ f := by
          rintro rfl
          exact ((hlive c).1 hgc).2 ⟨c, by simp, .refl _⟩
        simp [hgc, this]
      · simp [hgc]
    · intro m hm; rw [hwg.ops m hm, hw.ops m (hsub m hm)]
    · intro m hm
      rw [(hwg.ports m hm).1, (hwg.ports m hm).2]; exact hw.ports m (hsub m hm)
    · intro m hm; rw [hwg.metadata m hm, hw.metadata m (hsub m hm)]
    · rw [hwg.links, hw.links, List.filter_filter]
      apply List.filter_congr
      intro l _
      by_cases h1 : g.live l.src = true
      · by_cases h2 : g.live l.dst = true
        · simp [h1, h2, hsub _ h1, hsub _ h2]
        · simp [h2]
      · simp [h1]
    · rw [hwg.roots.1, hwg.roots.2]; exact hw.roots

theorem function_tag (op : Ops.Op) : Ops.OpTag.isSuperset .function op.opTag = true ↔
    (∃ n s, op = .funcDefn n s) ∨ ∃ n s, op = .funcDecl n s := by
  cases op <;> simp [Ops.Op.opTag] <;> decide

theorem checkEntries_spec {h : Hugr Ops.Op Meta} (ht : IsTree h) (debug : Bool)
    (entries : List Nat) :
    match checkEntries h debug entries with
    | .ok () => ∀ e ∈ entries, h.live e = true ∧ (∃ n s, h.ops e = .funcDefn n s) ∧
        (debug = true → h.hier.parent e = some h.moduleRoot)
    | .invalidEntryPoint n => n ∈ entries ∧ h.live n = true ∧ ∀ s t, h.ops n ≠ .funcDefn s t
    | .panic => ∃ e ∈ entries, h.live e = false ∨
        (debug = true ∧ h.hier.parent e ≠ some h.moduleRoot) := by
  induction entries with
  | nil => simp [checkEntries]
  | cons e es ih =>
    have hfd : isFuncDefn (h.ops e) = true ↔ ∃ n s, h.ops e = .funcDefn n s := by
      cases h.ops e <;> simp [isFuncDefn]
    unfold checkEntries
    by_cases h1 : h.live e = true
    · rw [if_neg (by simp [h1])]
      by_cases h2 : isFuncDefn (h.ops e) = true
      · rw [if_neg (by simp [h2])]
        by_cases h3 : debug = true ∧ h.hier.parent e ≠ some h.moduleRoot
        · rw [if_pos (by
            simp only [Bool.and_eq_true, decide_eq_true_eq, ne_eq, getParent_root ht]
            exact h3)]
          exact ⟨e, by simp, Or.inr h3⟩
        · rw [if_neg (by
            simp only [Bool.and_eq_true, decide_eq_true_eq, ne_eq, getParent_root ht]
            exact h3)]
          cases hc : checkEntries h debug es with
          | panic =>
            rw [hc] at ih
            obtain ⟨e', he', h4⟩ := ih
            exact ⟨e', List.mem_cons_of_mem _ he', h4⟩
          | invalidEntryPoint n =>
            rw [hc] at ih
            exact ⟨List.mem_cons_of_mem _ ih.1, ih.2⟩
          | ok _ =>
            rw [hc] at ih
            intro e' he'
            rcases List.mem_cons.1 he' with rfl | he'
            · exact ⟨h1, hfd.1 h2, fun hd => by
                by_contra hne; exact h3 ⟨hd, hne⟩⟩
            · exact ih e' he'
      · rw [if_pos (by simpa using h2)]
        exact ⟨by simp, h1, fun s t heq => h2 (hfd.2 ⟨s, t, heq⟩)⟩
    · rw [if_pos (by simpa using h1)]
      exact ⟨e, by simp, Or.inl (by simpa using h1)⟩

/-- **C36** If all the given nodes are function definitions at module level, the pass succeeds, and
what it takes away is exactly the functions that are dead, with everything inside them. The result
is a tree whose links join existing nodes. -/
theorem C36_removes_exactly (h : Hugr Ops.Op Meta) (ht : IsTree h) (hl : LinksOk h)
    (hso : StaticOk h) (hone : OneModule h) (debug : Bool) (entries : List Nat)
    (hentries : ∀ e ∈ entries, h.hier.parent e = some h.moduleRoot ∧
      ∃ n s, h.ops e = .funcDefn n s) :
    ∃ g, removeDeadFuncs h debug entries = .ok g ∧ IsTree g ∧ LinksOk g ∧
      WithoutNodes h (fun n => ∃ f, DeadFunc h entries f ∧ Above h.hier.parent n f) g := by
  have hce := checkEntries_spec ht debug entries
  obtain ⟨succ, hmg, hs1, hs2⟩ := moduleGraph_spec ht hso
  obtain ⟨found, hfound, hfm⟩ := reachableFuncs_spec ht hs1 hs2 (entries := entries)
    (fun e he => by
      obtain ⟨h1, n, s, h2⟩ := hentries e he
      exact mem_moduleNodes ht e h1 (by rw [h2]; rfl))
    (fun hne => by
      apply entry_mem_moduleNodes
      cases hm : isModule (h.ops h.entrypoint) with
      | false => rfl
      | true =>
        exfalso
        apply hne
        apply hone _ ht.entry_live
        revert hm
        cases h.ops h.entrypoint <;> simp [isModule])
  have henc : ∀ x, x ∈ enclosing h (h.cap + 1) h.entrypoint ↔
      Above h.hier.parent h.entrypoint x ∧ h.hier.parent x = some h.moduleRoot :=
    enclosing_spec ht (h.cap + 1) h.entrypoint [h.entrypoint] (by simp)
      (by
        intro x hx; simp only [List.mem_singleton] at hx; subst hx
        exact ⟨ht.entry_live, .refl _⟩) (by simp) (by simp)
  have hdead : ∀ f, f ∈ (h.children h.moduleRoot).filter (fun n =>
      Ops.OpTag.isSuperset .function (h.ops n).opTag &&
        decide (n ∉ found ++ enclosing h (h.cap + 1) h.entrypoint)) ↔ DeadFunc h entries f := by
    intro f
    rw [List.mem_filter, Bool.and_eq_true, function_tag, decide_eq_true_eq, List.mem_append, hfm,
      henc, show f ∈ h.children h.moduleRoot ↔ _ from ht.child_iff _ _]
    unfold DeadFunc
    constructor
    · rintro ⟨h1, h2, h3⟩
      refine ⟨h1, h2, fun h4 => h3 (Or.inl ⟨h4, ?_⟩), fun h4 => h3 (Or.inr ⟨h4, h1⟩)⟩
      rcases h2 with ⟨n, s, h5⟩ | ⟨n, s, h5⟩ <;> rw [h5] <;> rfl
    · rintro ⟨h1, h2, h3, h4⟩
      refine ⟨h1, h2, ?_⟩
      rintro (⟨h5, _⟩ | ⟨h5, _⟩)
      · exact h3 h5
      · exact h4 h5
  obtain ⟨g, hg, htg, hlg, hw⟩ := removeSubtrees_spec _ h ht hl
    ((ht.child_once h.moduleRoot).filter (fun n =>
      Ops.OpTag.isSuperset .function (h.ops n).opTag &&
        decide (n ∉ found ++ enclosing h (h.cap + 1) h.entrypoint)))
    (fun f hf => ((hdead f).1 hf).1) (fun f hf => ((hdead f).1 hf).2.2.2)
  refine ⟨g, ?_, htg, hlg, ?_⟩
  · unfold removeDeadFuncs
    cases hc : checkEntries h debug entries with
    | panic =>
      rw [hc] at hce
      obtain ⟨e, he, h1⟩ := hce
      have := hentries e he
      rcases h1 with h1 | h1
      · rw [(ht.parent_live _ _ this.1).1] at h1; cases h1
      · exact absurd this.1 h1.2
    | invalidEntryPoint n =>
      rw [hc] at hce
      obtain ⟨_, s, t, h1⟩ := hentries n hce.1
      exact absurd h1 (hce.2.2 s t)
    | ok _ =>
      simp only [hmg, hfound]
      have hg' : removeSubtrees h ((h.children h.moduleRoot).filter fun n =>
          Ops.OpTag.isSuperset .function (h.ops n).opTag &&
            decide (n ∉ found ++ enclosing h (h.cap + 1) h.entrypoint)) = some g := hg
      rw [hg']
  · have : (fun n => ∃ f ∈ (h.hier.children h.moduleRoot).filter (fun n =>
        Ops.OpTag.isSuperset .function (h.ops n).opTag &&
        decide (n ∉ found ++ enclosing h (h.cap + 1) h.entrypoint)), Above h.hier.parent n f) =
        fun n => ∃ f, DeadFunc h entries f ∧ Above h.hier.parent n f := by
      funext n
      apply propext
      exact exists_congr fun f => and_congr_left fun _ => hdead f
    rw [← this]
    exact hw

/-- **C36** If the pass reports an invalid entry point, this is one of the given nodes and it is not
a function definition. -/
theorem C36_error (h : Hugr Ops.Op Meta) (ht : IsTree h) (debug : Bool) (entries : List Nat)
    (n : Nat) (he : removeDeadFuncs h debug entries = .invalidEntryPoint n) :
    n ∈ entries ∧ h.live n = true ∧ ∀ s t, h.ops n ≠ .funcDefn s t := by
  have hce := checkEntries_spec ht debug entries
  unfold removeDeadFuncs at he
  cases hc : checkEntries h debug entries with
  | panic => rw [hc] at he; cases he
  | invalidEntryPoint n' =>
    rw [hc] at he hce; cases he
    exact hce
  | ok _ =>
    rw [hc] at he
    simp only at he
    repeat' split at he
    all_goals cases he

/-- **C36** A given node that is in the Hugr and not a function definition makes the pass fail: the
pass never removes anything then. -/
theorem C36_rejects (h : Hugr Ops.Op Meta) (ht : IsTree h) (debug : Bool) (entries : List Nat)
    (e : Nat) (he : e ∈ entries) (hne : ∀ s t, h.ops e ≠ .funcDefn s t) (g : Hugr Ops.Op Meta) :
    removeDeadFuncs h debug entries ≠ .ok g := by
  have hce := checkEntries_spec ht debug entries
  intro hok
  unfold removeDeadFuncs at hok
  cases hc : checkEntries h debug entries with
  | panic => rw [hc] at hok; cases hok
  | invalidEntryPoint n' => rw [hc] at hok; cases hok
  | ok _ =>
    rw [hc] at hce
    obtain ⟨_, ⟨n, s, h1⟩, _⟩ := hce e he
    exact hne n s h1

/-- **C36** If the entrypoint is the module or a function at module level, then every link into a node
that is kept is kept: calls and loads keep the function or constant they use.
Partial: for an entrypoint inside a function this fails, `C36_nested_entrypoint_refuted`. -/
theorem C36_links_kept_partial (h g : Hugr Ops.Op Meta) (ht : IsTree h) (hl : LinksOk h)
    (hso : StaticOk h) (hone : OneModule h) (hml : ModuleLinks h) (debug : Bool)
    (entries : List Nat)
    (hentries : ∀ e ∈ entries, h.hier.parent e = some h.moduleRoot ∧
      ∃ n s, h.ops e = .funcDefn n s)
    (hep : h.entrypoint = h.moduleRoot ∨ h.hier.parent h.entrypoint = some h.moduleRoot)
    (hg : removeDeadFuncs h debug entries = .ok g) (l : Link) (hm : l ∈ h.links)
    (hd : g.live l.dst = true) : l ∈ g.links := by
  obtain ⟨g', hg', _, _, hw⟩ := C36_removes_exactly h ht hl hso hone debug entries hentries
  rw [hg] at hg'; cases hg'
  rw [hw.links, List.mem_filter]
  refine ⟨hm, ?_⟩
  rw [Bool.and_eq_true]
  refine ⟨(hw.live _).2 ⟨(hl l hm).1, ?_⟩, hd⟩
  have hkeep := ((hw.live _).1 hd).2
  rintro ⟨f, hf, hfa⟩
  rcases hml l hm with ⟨c, h1, h2, h3⟩ | ⟨h1, h2, d, n, s, h3, h4, h5, h6⟩
  · have : f = c := module_level_unique ht hf.1 h1 hfa h2
    exact hkeep ⟨f, hf, this ▸ h3⟩
  · have hfs : l.src = f := above_module_level ht h2 hf.1 hfa
    have hdr : Reachable h entries d := by
      by_contra hnr
      refine hkeep ⟨d, ⟨h3, Or.inl ⟨n, s, h4⟩, hnr, fun ha => ?_⟩, h6⟩
      rcases hep with hep | hep
      · rw [hep] at ha
        rw [← ha.eq_of_top ht.root_top, ht.root_top] at h3; cases h3
      · have := above_module_level ht hep h3 ha
        apply hnr
        rw [← this]
        refine .entrypoint fun hr => ?_
        rw [hr, ht.root_top] at hep; cases hep
    apply hf.2.2.1
    rw [← hfs]
    exact .use hdr ⟨l, h1, rfl, h2, h5, h6⟩

/-! ## Examples -/

/-- A module with functions `main` (1), `f` (4), `g` (7) and `unused` (10): `main` calls `f`, `f`
loads `g`, `unused` calls `g`. -/
def funcsHistory : List (Cmd Ops.Op String) :=
  [ .addNodeWithParent 1 0 (.funcDefn "main" ⟨[], ⟨[], []⟩⟩),
    .addNodeWithParent 2 1 (.input []), .addNodeWithParent 3 1 (.output []),
    .addNodeWithParent 4 0 (.funcDefn "f" ⟨[], ⟨[], []⟩⟩),
    .addNodeWithParent 5 4 (.input []), .addNodeWithParent 6 4 (.output []),
    .addNodeWithParent 7 0 (.funcDecl "g" ⟨[], ⟨[], []⟩⟩),
    .addNodeWithParent 8 1 (.call ⟨[], ⟨[], []⟩⟩ [] ⟨[], []⟩), .connect ⟨4, 0, 8, 0⟩,
    .addNodeWithParent 9 4 (.loadFunction ⟨[], ⟨[], []⟩⟩ [] ⟨[], []⟩), .connect ⟨7, 0, 9, 0⟩,
    .addNodeWithParent 10 0 (.funcDefn "unused" ⟨[], ⟨[], []⟩⟩),
    .addNodeWithParent 11 10 (.input []), .addNodeWithParent 12 10 (.output []),
    .addNodeWithParent 13 10 (.call ⟨[], ⟨[], []⟩⟩ [] ⟨[], []⟩), .connect ⟨7, 0, 13, 0⟩ ]

/-- The nodes and links left by the pass. -/
def dfNodes (h : Hugr Ops.Op String) (entries : List Nat) : Option (List Nat × List Link) :=
  match removeDeadFuncs h true entries with
  | .ok g => some (g.nodes, g.links)
  | _ => none

/-- With the module as entrypoint only what the given functions need is kept; with `main` as
entrypoint this is kept as well. -/
example :
    dfNodes (built funcsHistory) [] = some ([0], []) ∧
    dfNodes (built funcsHistory) [4] = some ([0, 4, 5, 6, 7, 9], [⟨7, 0, 9, 0⟩]) ∧
    dfNodes (built funcsHistory) [10] = some ([0, 7, 10, 11, 12, 13], [⟨7, 0, 13, 0⟩]) ∧
    dfNodes (built (funcsHistory ++ [.setEntrypoint 1])) [] =
      some ([0, 1, 2, 3, 4, 5, 6, 7, 8, 9], [⟨4, 0, 8, 0⟩, ⟨7, 0, 9, 0⟩]) ∧
    dfNodes (built funcsHistory) [7] = none := by decide +kernel

/-- The example meets the hypotheses of the theorems. -/
example : IsTree (built funcsHistory) ∧ LinksOk (built funcsHistory) ∧
    StaticOk (built funcsHistory) ∧ OneModule (built funcsHistory) ∧
    ModuleLinks (built funcsHistory) ∧
    (∀ e ∈ [4], (built funcsHistory).hier.parent e = some (built funcsHistory).moduleRoot ∧
      ∃ n s, (built funcsHistory).ops e = .funcDefn n s) := by
  obtain ⟨h1, h2⟩ := built_ok funcsHistory (by decide +kernel) (by decide +kernel)
  have hlinks : (built funcsHistory).links = [⟨4, 0, 8, 0⟩, ⟨7, 0, 9, 0⟩, ⟨7, 0, 13, 0⟩] := by
    decide +kernel
  refine ⟨h1, h2, ⟨?_, ?_, ?_⟩, ?_, ?_, ?_⟩
  · rintro l l' ⟨h3, _⟩ ⟨h4, _⟩ h5
    rw [hlinks] at h3 h4
    fin_cases h3 <;> fin_cases h4 <;> simp_all
  · rintro l ⟨h3, _⟩ _
    rw [hlinks] at h3
    fin_cases h3
    · exact Or.inl ⟨"f", ⟨[], ⟨[], []⟩⟩, rfl⟩
    · exact Or.inr (Or.inl ⟨"g", ⟨[], ⟨[], []⟩⟩, rfl⟩)
    · exact Or.inr (Or.inl ⟨"g", ⟨[], ⟨[], []⟩⟩, rfl⟩)
  · rintro l ⟨h3, _⟩ h4
    rw [hlinks] at h3
    exfalso
    fin_cases h3 <;> exact h4 rfl
  · intro n hn hop
    have hlt : n < 14 := h1.in_range n hn
    have key : ∀ n < 14, isModule ((built funcsHistory).ops n) = true → n = 0 := by decide +kernel
    exact key n hlt (by rw [hop]; rfl)
  · intro l h3
    rw [hlinks] at h3
    right
    fin_cases h3
    · exact ⟨⟨by rw [hlinks]; simp, rfl⟩, rfl, 1, "main", ⟨[], ⟨[], []⟩⟩, rfl, rfl, by decide,
        .of_parent rfl⟩
    · exact ⟨⟨by rw [hlinks]; simp, rfl⟩, rfl, 4, "f", ⟨[], ⟨[], []⟩⟩, rfl, rfl, by decide,
        .of_parent rfl⟩
    · exact ⟨⟨by rw [hlinks]; simp, rfl⟩, rfl, 10, "unused", ⟨[], ⟨[], []⟩⟩, rfl, rfl, by decide,
        .of_parent rfl⟩
  · intro e he
    simp only [List.mem_singleton] at he
    subst he
    exact ⟨rfl, "f", ⟨[], ⟨[], []⟩⟩, rfl⟩

/-! ## Findings -/

/-- `main` with a nested graph (14) that is the entrypoint; `main` calls `f` outside of it. -/
def nestedHistory : List (Cmd Ops.Op String) :=
  funcsHistory ++ [.addNodeWithParent 14 1 (.dfg ⟨[], []⟩), .addNodeWithParent 15 14 (.input []),
    .addNodeWithParent 16 14 (.output []), .setEntrypoint 14]

/-- **C36** Finding: if the entrypoint is a graph inside a function, this function is kept but the
functions it calls outside of the entrypoint are not: here the call 8 in `main` is left without a
function to call. -/
theorem C36_nested_entrypoint_refuted :
    ∃ g, removeDeadFuncs (built nestedHistory) true [] = .ok g ∧ g.live 8 = true ∧
      (∃ t i o, g.ops 8 = .call t i o) ∧ (⟨4, 0, 8, 0⟩ : Link) ∈ (built nestedHistory).links ∧
      g.links = [] :=
  ⟨_, rfl, by decide +kernel, ⟨_, _, _, rfl⟩, by decide +kernel, by decide +kernel⟩

/-- **C36** Finding: a given node that is not in the Hugr makes the pass panic; it is not reported
as an invalid entry point. -/
theorem C36_missing_node_panics (h : Hugr Ops.Op Meta) (debug : Bool) (n : Nat)
    (hn : h.live n = false) (entries : List Nat) :
    removeDeadFuncs h debug (n :: entries) = .panic := by
  simp [removeDeadFuncs, checkEntries, hn]

/-- It does happen: an empty module has no node 7. -/
example : (built []).live 7 = false := by decide +kernel

end Verif.Passes
