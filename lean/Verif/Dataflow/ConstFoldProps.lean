import Verif.Dataflow.ConstFoldLemmas
import Verif.Dataflow.ConstFoldRewrite

/-!
# C49: constant folding preserves executions
-/
namespace Verif.Dataflow

open Verif.Graph Verif.Ops Verif.Passes Verif.Validate PV

variable {Meta W E : Type} [DecidableEq E] {C : Validate.Context} {h : Hugr Ops.Op Meta}
  {F : Folder E} {S : Sem W E} {inputs : FoldInputs E} {p0 proto : List (Nat × Nat × Abs (Handle E))}
  {s : AState (Handle E)} {facts : List (Fact (Handle E))}

/-- **C49** Whatever the order of evaluation of the analysis: a wire that the pass replaces by a
constant has the value of that constant whenever it has a value, in every execution that the pass was
told about. Missing: see `C48_inputs_partial` for `Covered`, and wires that come from the inputs of a
function, case or block that the execution was started with. -/
theorem C49_constants_partial (ht : IsTree h) (hv : Valid C h) (hF : FolderSound F S)
    (hin : InputsAgree F inputs) (hp0 : prepopulate h (foldCalls F h inputs) [] = some p0)
    (hp : runProto h p0 [] = .ok proto) (hr : Run h (foldContext F h) proto s facts)
    (hf : Finished h (foldContext F h) proto s) (hcov : Covered h (foldCalls F h inputs) s)
    {bs : List (Break E)} (hbs : wiresToBreak F h s = some bs) (hkept : InputsKept h inputs bs)
    {r : Nat} {args : List (Val W)} {a : Activation W}
    (ho : Occurs h S (FoldStarts h S inputs) r args a) (b : Break E) (hb : b ∈ bs) (l : Link)
    (hl : l ∈ h.links) (hd : l.dst = b.node) (hdp : l.dstPort = b.port) (v : Val W)
    (hw : a.wires l.src l.srcPort = some v) : v = S.value b.val.1 := by
  obtain ⟨tr, htr⟩ := run_trace hr
  let Seen : Nat → List (Abs (Handle E)) → Prop := fun n row =>
    IsExt h n ∧ rowContainsBottom row = false ∧ ∃ s' ∈ s :: tr, s'.rowOf h n = row
  have hK := foldContext_wf F h
  have hwc : CallsAll (fun a => WF a ∧ AllLeaves (handleGood F h inputs Seen) a)
      (foldCalls F h inputs) := by
    intro c hc
    obtain ⟨x, hx, rfl⟩ := List.mem_map.1 hc
    intro e he
    obtain ⟨⟨p, c⟩, hpc, rfl⟩ := List.mem_map.1 he
    exact ⟨partialFromConst_wf .., (input_ok (S := S) hx hpc).1⟩
  have hwp : ∀ e ∈ proto, WF e.2.2 := fun e he =>
    (runProto_all (Q := fun a => WF a ∧ AllLeaves (handleGood F h inputs Seen) a) ⟨trivial, trivial⟩ hp
      (by simp) (prepopulate_all ⟨trivial, trivial⟩ hwc hp0 (by simp)) e he).1
  have hadv := trace_adv F hK hwp htr
  have hseen : SeenOk F h Seen := by
    refine ⟨fun n row hs => hs.1, fun n row hs => hs.2.1, ?_⟩
    rintro n row row' ⟨_, _, s1, hs1, rfl⟩ ⟨_, _, s2, hs2, rfl⟩
    rcases pairwise_total hadv hs1 hs2 with rfl | h1 | h1
    · exact .inl (List.forall₂_same.2 fun x _ => Adv.refl F x)
    · exact .inr (h1 n)
    · exact .inl (h1 n)
  have hfun : ∀ n f e e', Origin F h inputs Seen n f e → Origin F h inputs Seen n f e' → e = e' :=
    fun n f e e' h1 h2 => origin_fun ht hv hF hin hseen h1 h2
  have hS := fold_faithful (inputs := inputs) hfun hF
  have hrows : ∀ s' ∈ s :: tr, RowsSeen Seen h s' := fun s' hs' n hn hb => ⟨hn, hb, s', hs', rfl⟩
  obtain ⟨d, hlat⟩ := done_of_trace handle_laws handle_mono ht hv hK hwc (by simp) hp0 hp hS htr hrows
    hr hf
  obtain ⟨hinv, hroot⟩ := occurs_inv d hlat hS (hrows s (by simp)) hp0 hp hcov
    (occurs_mono (fun _ _ => foldStarts_starts) ho)
  obtain ⟨_, _, _, src, q, hlo, _, _, hrc⟩ := mem_breaksOf hbs b hb
  have hsrc : l.src = src ∧ l.srcPort = q := by
    have hmem : (l.src, l.srcPort) ∈ h.linkedOutputs b.node b.port := by
      simp only [Hugr.linkedOutputs, List.mem_map, List.mem_filter]
      exact ⟨l, ⟨hl, by simp [hd, hdp]⟩, rfl⟩
    rw [hlo] at hmem
    simpa using hmem
  rcases hinv.leave _ _ v hw with hdesc | ⟨hann, hreg, o, hio⟩
  · unfold readConcrete at hrc
    rw [← hsrc.1, ← hsrc.2] at hrc
    split at hrc
    · split at hrc
      · split at hrc
        · rename_i c hc
          simp only [Option.some.injEq] at hrc
          subst hrc
          exact concrete_value hfun _ _ _ hc (d.good.out _ _) v hdesc
        · simp at hrc
      · simp at hrc
    · simp at hrc
  · rw [hroot] at hann hreg hio
    refine absurd ⟨o, hio⟩ (hkept b hb l hl hd hdp r ?_ hreg)
    rcases hann with hann | ⟨iv, hann⟩
    · exact .inl hann
    · obtain ⟨x, hx, heq⟩ := List.mem_map.1 hann
      simp only [PreCall.inputs.injEq] at heq
      exact .inr (List.mem_map.2 ⟨x, hx, heq.1⟩)

/-- The wires that are broken lead to inputs of live nodes, and each is broken once. -/
theorem breaks_ok (ht : IsTree h) (hv : Valid C h) {bs : List (Break E)}
    (hbs : wiresToBreak F h s = some bs) : (∀ b ∈ bs, h.live b.node = true ∧
      b.port < numIns (h.ops b.node)) ∧ (bs.map fun b => (b.node, b.port)).Nodup := by
  refine ⟨fun b hb => ?_, (entryPorts_nodup ht).sublist (breaksOf_sublist hbs)⟩
  obtain ⟨hm, _, hval, _⟩ := mem_breaksOf hbs b hb
  simp only [entryPorts, List.mem_flatMap, List.mem_map, List.mem_range, Prod.mk.injEq] at hm
  obtain ⟨n, hn, p, hp, rfl, rfl⟩ := hm
  have hlive : h.live b.node = true := by
    have := ((descendants_enumerates ht ht.entry_live).mem b.node).1 hn
    generalize h.entrypoint = x, ht.entry_live = hx at this
    cases this with
    | refl => exact hx
    | step hp _ => exact (ht.parent_live _ _ hp).1
  refine ⟨hlive, valueIn_lt (hv.tags _ hlive) ?_ hval⟩
  rw [← (hv.ports _ hlive).1]; exact hp

theorem breaks_folded (ht : IsTree h) (hv : Valid C h) {bs : List (Break E)}
    (hbs : wiresToBreak F h s = some bs) {idxs : List (Nat × Nat)} (hlen : idxs.length = bs.length)
    {h' : Hugr Ops.Op Meta} (hb : breakAll h (bs.zip idxs) = some h') : Folded h (bs.zip idxs) h' := by
  obtain ⟨hok, hnd⟩ := breaks_ok ht hv hbs
  have hmem : ∀ x ∈ bs.zip idxs, x.1 ∈ bs := fun x hx => (List.of_mem_zip hx).1
  have hfst : (bs.zip idxs).map Prod.fst = bs := List.map_fst_zip (by omega)
  exact breakAll_folded (bs.zip idxs) ht (fun x hx => (hok _ (hmem x hx)).1) (by
    have : ((bs.zip idxs).map fun x => (x.1.node, x.1.port)) =
        ((bs.zip idxs).map Prod.fst).map fun b => (b.node, b.port) := by simp
    rw [this, hfst]; exact hnd) hb

/-- **C49** What breaking the wires does to the Hugr: each comes from a new constant of the value that
the analysis found, and nothing else changes. -/
theorem C49_rewired (ht : IsTree h) (hv : Valid C h) {bs : List (Break E)}
    (hbs : wiresToBreak F h s = some bs) {idxs : List (Nat × Nat)} (hlen : idxs.length = bs.length)
    {h' : Hugr Ops.Op Meta} (hb : breakAll h (bs.zip idxs) = some h') :
    Rewired h F.constant (bs.zip idxs) h' (newConstants F.constant (bs.zip idxs)) := by
  have f := breaks_folded ht hv hbs hlen hb
  have hnew : ∀ x ∈ bs.zip idxs, x.2.1 ∈ newNodes (bs.zip idxs) ∧ x.2.2 ∈ newNodes (bs.zip idxs) :=
    fun x hx => ⟨List.mem_flatMap.2 ⟨x, hx, by simp⟩, List.mem_flatMap.2 ⟨x, hx, by simp⟩⟩
  refine ⟨f.tree, f.roots, fun n hn => ⟨(f.live n).2 (.inl hn), f.old hn, (f.numPorts n hn).1,
    (f.numPorts n hn).2, f.parent n hn, ?_, newConstants_old _ _ fun hc => ?_⟩, fun n hn hno => ?_,
    fun x hx => ⟨f.fresh _ (hnew x hx).1, (f.live _).2 (.inr (hnew x hx).1), (f.new x hx).1,
      newConstants_new _ _ f.nodup hx, (f.new x hx).2.2.2.2.2, f.noChildren _ (hnew x hx).1⟩,
    fun x hx => ⟨f.fresh _ (hnew x hx).2, (f.live _).2 (.inr (hnew x hx).2), (f.new x hx).2.1,
      (f.new x hx).2.2.2.2.1, f.noChildren _ (hnew x hx).2⟩, f.nodup, fun l => ⟨fun hl => ?_, ?_⟩⟩
  · obtain ⟨new, he, _⟩ := f.children n hn
    exact ⟨new, he.symm⟩
  · rw [f.fresh n hc] at hn; cases hn
  · rcases (f.live n).1 hn with hl | hl
    · rw [hno] at hl; cases hl
    · obtain ⟨x, hx, hm⟩ := List.mem_flatMap.1 hl
      exact ⟨x, hx, by simpa using hm⟩
  · rcases f.links l hl with ⟨h1, h2⟩ | h1
    · exact .inl ⟨h1, fun x hx hc => h2 x hx ⟨hc.1.symm, hc.2.symm⟩⟩
    · exact .inr h1
  · rintro (⟨h1, h2⟩ | ⟨x, hx, rfl | rfl⟩)
    · rcases f.kept l h1 with h3 | ⟨x, hx, h3, h4⟩
      · exact h3
      · exact absurd ⟨h3.symm, h4.symm⟩ (h2 x hx)
    · exact (f.new x hx).2.2.1
    · exact (f.new x hx).2.2.2.1

/-- **C49** The rewriting that constant folding does preserves executions: everything that happens in
an execution of the Hugr that the pass was told about happens after the wires are broken as well, with
the same values. Missing: see `C49_constants_partial`; and the removal of dead code, see C50. -/
theorem C49_preserves_partial (ht : IsTree h) (hv : Valid C h) (hF : FolderSound F S)
    (hin : InputsAgree F inputs) (hp0 : prepopulate h (foldCalls F h inputs) [] = some p0)
    (hp : runProto h p0 [] = .ok proto) (hr : Run h (foldContext F h) proto s facts)
    (hf : Finished h (foldContext F h) proto s) (hcov : Covered h (foldCalls F h inputs) s)
    {bs : List (Break E)} (hbs : wiresToBreak F h s = some bs) (hkept : InputsKept h inputs bs)
    {idxs : List (Nat × Nat)} (hlen : idxs.length = bs.length) {h' : Hugr Ops.Op Meta}
    (hb : breakAll h (bs.zip idxs) = some h') (Root : Nat → List (Val W) → Prop)
    (hroot : ∀ r args, Root r args → FoldStarts h S inputs r args) :
    Preserves h S h' { S with const := newConstants S.const (bs.zip idxs) } Root := by
  obtain ⟨hok, hnd⟩ := breaks_ok ht hv hbs
  have hmem : ∀ x ∈ bs.zip idxs, x.1 ∈ bs := fun x hx => (List.of_mem_zip hx).1
  have f := breaks_folded ht hv hbs hlen hb
  have m := fold_sim ht hv f S (fun x hx => (hok _ (hmem x hx)).1) (fun x hx => (hok _ (hmem x hx)).2)
  refine sim_preserves m (begins_body ht hv) ?_
    (fun r args hs => ⟨(hroot r args hs).1, funcsInAll_true _⟩) (fun n h1 _ => h1)
  intro r args a ho b hb' l hl hn hpo v hw
  obtain ⟨x, hx, rfl⟩ := List.mem_map.1 hb'
  exact C49_constants_partial ht hv hF hin hp0 hp hr hf hcov hbs hkept (occurs_mono hroot ho) x.1
    (hmem x hx) l hl hn.symm hpo.symm v hw

end Verif.Dataflow
