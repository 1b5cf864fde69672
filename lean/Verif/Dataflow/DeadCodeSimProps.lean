import Verif.Dataflow.DeadCodeFold

/-!
# C50: dead code elimination preserves executions, and so does all of constant folding
-/
namespace Verif.Dataflow

open Verif.Graph Verif.Ops Verif.Passes Verif.Validate PV

variable {Meta W E : Type} {C : Validate.Context} {h g : Hugr Ops.Op Meta}

/-- The executions that are started at the entrypoint, at a given node, or outside of the entrypoint,
with values in which there is no function that `g` does not have. -/
def DceStarts (h g : Hugr Ops.Op Meta) (entries : List Nat) (r : Nat) (args : List (Val W)) : Prop :=
  h.live r = true ∧ (r = h.entrypoint ∨ r ∈ entries ∨ ¬ Above h.hier.parent r h.entrypoint) ∧
  FuncsInAll (Survives h g) args

theorem dceStarts_live (ht : IsTree h) (hfm : Formed h) {callback : Nat → PreserveNode}
    {entries : List Nat} (hd : deadCodeElim h callback entries = .ok g) {r : Nat}
    {args : List (Val W)} (hs : DceStarts h g entries r args) : g.live r = true := by
  rw [(C35_removes_exactly h g ht hfm.links hfm.tags callback entries hd).live]
  refine ⟨hs.1, fun hc => ?_⟩
  rcases hs.2.1 with rfl | h1 | h1
  · exact hc.2 .entrypoint
  · exact hc.2 (.entry h1)
  · exact h1 hc.1

/-- **C50** Dead code elimination preserves executions, whatever may be removed: all that happens in
an execution of a valid Hugr also happens, on the nodes that are left, after the pass, and all that
happens after the pass happened before as well. Missing for the full property: entrypoints that are
basic blocks (`C50_block_entrypoint_refuted`), and given nodes inside nodes that are not given
(`C35_given_node_refuted`). Calls of a function that was removed, by something that is not in the
Hugr, are not considered: what is not in the Hugr returns only functions it was given, or functions
that are left. -/
theorem C50_dead_code_partial (ht : IsTree h) (hv : Valid C h)
    (hentry : ∀ x y z, h.ops h.entrypoint ≠ .dataflowBlock x y z) {callback : Nat → PreserveNode}
    {entries : List Nat} (hopen : EntriesOpen h entries)
    (hd : deadCodeElim h callback entries = .ok g) (S : Sem W E) (hS : S.Closed (Survives h g)) :
    Preserves h S g S (DceStarts h g entries) ∧ Preserves g S h S (DceStarts h g entries) := by
  have hfm := valid_formed ht hv hentry
  exact deadCode_preserves ht hfm hopen hd S hS _ fun r args hs => ⟨dceStarts_live ht hfm hd hs, hs.2.2⟩

variable [DecidableEq E] {F : Folder E} {S : Sem W E} {inputs : FoldInputs E}
  {p0 proto : List (Nat × Nat × Abs (Handle E))} {s : AState (Handle E)}
  {facts : List (Fact (Handle E))}

theorem breaks_ins {bs : List (Break E)} (hbs : wiresToBreak F h s = some bs) :
    ∀ b ∈ bs, b.port < h.ins b.node := by
  intro b hb
  obtain ⟨hm, _⟩ := mem_breaksOf hbs b hb
  simp only [entryPorts, List.mem_flatMap, List.mem_map, List.mem_range, Prod.mk.injEq] at hm
  obtain ⟨n, hn, p, hp, rfl, rfl⟩ := hm
  exact hp

/-- **C50** Constant folding, with the removal of dead code, preserves executions: all that happens in
an execution of a valid Hugr that the pass was told about also happens, on the nodes that are left,
after the pass. The new constants have the values of `C49_rewired`. Missing: as for
`C49_constants_partial` and `C50_dead_code_partial`. -/
theorem C50_constant_fold_partial (ht : IsTree h) (hv : Valid C h)
    (hentry : ∀ x y z, h.ops h.entrypoint ≠ .dataflowBlock x y z) (hF : FolderSound F S)
    (hin : InputsAgree F inputs) (hlive : ∀ x ∈ inputs, h.live x.1 = true)
    (hopen : EntriesOpen h (inputs.map Prod.fst))
    (hp0 : prepopulate h (foldCalls F h inputs) [] = some p0)
    (hp : runProto h p0 [] = .ok proto) (hr : Run h (foldContext F h) proto s facts)
    (hf : Finished h (foldContext F h) proto s) (hcov : Covered h (foldCalls F h inputs) s)
    (hkept : ∀ bs, wiresToBreak F h s = some bs → InputsKept h inputs bs) {allow : Bool}
    {idxs : List (Nat × Nat)} (hd : foldAfter F allow h inputs s idxs = some g)
    (hS : S.Closed (Survives h g)) :
    ∃ bs, wiresToBreak F h s = some bs ∧
      Preserves h S g { S with const := newConstants S.const (bs.zip idxs) }
        fun r args => FoldStarts h S inputs r args ∧ FuncsInAll (Survives h g) args := by
  unfold foldAfter at hd
  split at hd
  · cases hd
  rename_i bs hbs
  split at hd
  case isFalse => cases hd
  rename_i hlen
  split at hd
  · cases hd
  rename_i h1 hb
  split at hd
  case h_2 => cases hd
  rename_i h2 hdce
  cases hd
  obtain ⟨hok, _⟩ := breaks_ok ht hv hbs
  have hmem : ∀ x ∈ bs.zip idxs, x.1 ∈ bs := fun x hx => (List.of_mem_zip hx).1
  have f := breaks_folded ht hv hbs hlen hb
  have hfm := folded_formed ht (valid_formed ht hv hentry) f (fun x hx => (hok _ (hmem x hx)).1)
    (fun x hx => (hok _ (hmem x hx)).2) (fun x hx => breaks_ins hbs _ (hmem x hx))
  have hopen1 : EntriesOpen h1 (inputs.map Prod.fst) := by
    intro e he p hp hab
    obtain ⟨x, hx, rfl⟩ := List.mem_map.1 he
    have hl := hlive x hx
    rw [f.parent _ hl] at hp
    rw [f.roots.2] at hab ⊢
    exact hopen _ he p hp ((folded_above ht f (ht.parent_live _ _ hp).2).1 hab)
  have hsurv : Survives h1 g = Survives h g := by
    funext n
    refine propext ⟨fun hs hd' hl => hs ?_ ((f.live n).2 (.inl hl)), fun hs hd' hl => ?_⟩
    · obtain ⟨a, b, hab⟩ := hd'
      exact ⟨a, b, by rw [f.old hl]; exact hab⟩
    · obtain ⟨a, b, hab⟩ := hd'
      rcases (f.live n).1 hl with h3 | h3
      · exact hs ⟨a, b, by rw [← f.old h3]; exact hab⟩ h3
      · obtain ⟨x, hx, hm⟩ := List.mem_flatMap.1 h3
        simp only [List.mem_cons, List.not_mem_nil, or_false] at hm
        rcases hm with rfl | rfl
        · rw [(f.new x hx).1] at hab; cases hab
        · rw [(f.new x hx).2.1] at hab; cases hab
  refine ⟨bs, hbs, ?_⟩
  have p1 := C49_preserves_partial ht hv hF hin hp0 hp hr hf hcov hbs (hkept bs hbs) hlen hb
    (fun r args => FoldStarts h S inputs r args ∧ FuncsInAll (Survives h g) args) fun r args hs => hs.1
  have hw := C35_removes_exactly h1 g f.tree hfm.links hfm.tags _ _ hdce
  have p2 := (deadCode_preserves f.tree hfm hopen1 hdce { S with const := newConstants S.const (bs.zip idxs) }
    (by rw [hsurv]; exact ⟨hS.ext, hS.external, hS.unknown⟩)
    (fun r args => FoldStarts h S inputs r args ∧ FuncsInAll (Survives h g) args) fun r args hs => by
      refine ⟨dceStarts_live f.tree hfm hdce (args := args)
        ⟨(f.live r).2 (.inl hs.1.1), ?_, by rw [hsurv]; exact hs.2⟩, by rw [hsurv]; exact hs.2⟩
      rcases hs.1.2.2 with ⟨_, hr⟩ | ⟨vals, hr, _⟩
      · exact .inl (by rw [f.roots.2]; exact hr)
      · exact .inr (.inl (List.mem_map.2 ⟨_, hr, rfl⟩))).1
  exact p1.trans p2 (fun n hn => ((hw.live n).1 hn).1) fun n hn _ => f.old hn

end Verif.Dataflow
