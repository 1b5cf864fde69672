import Verif.Dataflow.AnalysisRuns
import Verif.Validate.Props

/-!
# C48: the dataflow analysis covers every execution
-/
namespace Verif.Dataflow

open Verif.Graph Verif.Ops Verif.Passes Verif.Validate PV

variable {Meta V E W : Type}

mutual
theorem const_good {good : V → Prop} {K : DFContext V E} {n : Nat} (path : List Nat) :
    ∀ c : CVal E, (∀ q e v, LeafAt c q e → K.load n (q ++ path) e = some v → good v) →
      AllLeaves good (partialFromConst K.load n path c)
  | .leaf e, hload => by
    simp only [partialFromConst]
    cases hl : K.load n path e with
    | none => simp [AllLeaves]
    | some v => exact hload [] e v (.leaf e) hl
  | .sum tag vals, hload => by
    simp only [partialFromConst, newVariant]
    rw [allLeaves_psum_iff]
    intro k row hm x hx
    simp only [List.mem_singleton, Prod.mk.injEq] at hm
    obtain ⟨rfl, rfl⟩ := hm
    refine consts_good path 0 vals (fun k c hk q e v hl hv => ?_) x hx
    exact hload (q ++ [k]) e v (.sum hk hl) (by simpa using hv)
theorem consts_good {good : V → Prop} {K : DFContext V E} {n : Nat} (path : List Nat) :
    ∀ (i : Nat) (cs : List (CVal E)), (∀ k c, cs[k]? = some c → ∀ q e v, LeafAt c q e →
        K.load n (q ++ (i + k) :: path) e = some v → good v) →
      ∀ x ∈ partialsFromConst K.load n path i cs, AllLeaves good x
  | _, [], _ => by simp [partialsFromConst]
  | i, c :: cs, hload => by
    intro x hx
    simp only [partialsFromConst, List.mem_cons] at hx
    rcases hx with rfl | hx
    · exact const_good (i :: path) c fun q e v hl hv => hload 0 c rfl q e v hl (by simpa using hv)
    · refine consts_good path (i + 1) cs (fun k c' hk q e v hl hv => ?_) x hx
      refine hload (k + 1) c' (by simpa using hk) q e v hl ?_
      rwa [show i + (k + 1) = i + 1 + k by omega]
end

section C48
variable [AbsVal V] {vle : V → V → Prop} {vd : V → W → Prop} {good : V → Prop} (L : AbsLaws V vle)
  (D : ∀ a b w, vle a b → vd a w → vd b w) {C : Validate.Context} {h : Hugr Ops.Op Meta} (ht : IsTree h)
  (hv : Valid C h) {K : DFContext V E} (hK : ContextWF K) {S : Sem W E}
  {calls : List (PreCall V)} {inValues : List (Nat × Abs V)} {p0 proto : List (Nat × Nat × Abs V)}
  (hcalls : CallsAll (fun a => WF a ∧ AllLeaves good a) calls)
  (hvals : ∀ e ∈ inValues, WF e.2 ∧ AllLeaves good e.2)
  (hp0 : prepopulate h calls [] = some p0) (hp : runProto h p0 inValues = .ok proto)

include L D ht hv hK hcalls hvals hp0 hp in
/-- The state at the end of an evaluation whose states are `s :: tr`. -/
theorem done_of_trace {Seen : Nat → List (Abs V) → Prop} (hS : FaithfulOn Seen vd good h K S)
    {s : AState V} {tr : List (AState V)} {facts : List (Fact V)}
    (htr : Trace h K proto (s :: tr) facts) (hseen : ∀ s' ∈ s :: tr, RowsSeen Seen h s')
    (hr : Run h K proto s facts) (hf : Finished h K proto s) : Done C vle vd good h K proto s ∧
    ∀ n, LatOk vle (s.indirect.get n .bottom) (s.inOf n 0) := by
  have hwp := runProto_all (Q := fun a => WF a ∧ AllLeaves good a) ⟨trivial, trivial⟩ hp hvals
    (prepopulate_all ⟨trivial, trivial⟩ hcalls hp0 (by simp))
  have hKg : ContextAll Seen (fun a => WF a ∧ AllLeaves good a) h K := by
    refine ⟨fun n ins p hs hi => ⟨hK n ins p fun x hx => (hi x hx).1,
      hS.interp_good n ins p hs fun x hx => (hi x hx).2⟩, fun n t c t' hop hsrc hc =>
      ⟨partialFromConst_wf .., const_good [] _ fun q e v hl hv => ?_⟩⟩
    have hlo : (h.linkedOutputs n 0).map Prod.fst = [c] := by
      unfold singleSource at hsrc
      split at hsrc
      · rename_i heq; rw [heq]; simpa using hsrc
      · simp at hsrc
    have hmem : c ∈ (h.linkedOutputs n 0).map Prod.fst := by rw [hlo]; simp
    simp only [Hugr.linkedOutputs, List.mem_map, List.mem_filter] at hmem
    obtain ⟨_, ⟨l, ⟨hl1, hl2⟩, rfl⟩, rfl⟩ := hmem
    simp only [Bool.and_eq_true, decide_eq_true_eq] at hl2
    exact (hS.load n l.src q e v ⟨t, l, hop, hl1, hl2.1, hl2.2, rfl⟩ hl (by simpa using hv)).1
  have hall := (trace_all (stable_good hS.join_good) hKg hseen hwp htr).1 s (by simp)
  have hwf : StateWF h s := ⟨fun n p => (hall.out n p).1, fun n p => (hall.inn n p).1,
    fun n x hx => (hall.row n x hx).1, hall.len⟩
  have hg : StateAll (AllLeaves good) h s := ⟨fun n p => (hall.out n p).2, fun n p => (hall.inn n p).2,
    fun n x hx => (hall.row n x hx).2, hall.len⟩
  exact ⟨⟨ht, hv, D, hwf, hg, closed_of_finished L hK (fun e he => (hwp e he).1) hwf hf⟩,
    (run_indirect L hK (fun e he => (hwp e he).1) hr).1⟩

variable (hS : Faithful vd good h K S)
  {s : AState V} {facts : List (Fact V)} (hr : Run h K proto s facts) (hf : Finished h K proto s)
  (hcov : Covered h calls s)
include L D ht hv hK hS hcalls hvals hp0 hp hr hf

theorem done_of_finished : Done C vle vd good h K proto s ∧
    ∀ n, LatOk vle (s.indirect.get n .bottom) (s.inOf n 0) := by
  obtain ⟨tr, htr⟩ := run_trace hr
  exact done_of_trace L D ht hv hK hcalls hvals hp0 hp hS htr (fun _ _ n hn _ => hn) hr hf

include hcov

/-- **C48** Whatever the order of evaluation, when the analysis of a valid Hugr has finished, every
value that arrives at an input in an execution is described by what the analysis found for that
input. Missing: calls of functions without a body, and of functions that the analysis cannot tell
and that were not announced (`Covered`). -/
theorem C48_inputs_partial {r : Nat} {args : List (Val W)} {a : Activation W}
    (ho : Occurs h S (Starts h vd calls inValues) r args a) (l : Link) (hl : l ∈ h.links)
    (v : Val W) (hw : a.wires l.src l.srcPort = some v) (hq : l.dstPort < numIns (h.ops l.dst)) :
    Describes vd (s.inOf l.dst l.dstPort) v := by
  obtain ⟨d, hlat⟩ := done_of_finished L D ht hv hK hcalls hvals hp0 hp hS hr hf
  obtain ⟨hinv, _⟩ := occurs_inv d hlat hS (fun n hn _ => hn) hp0 hp hcov ho
  refine hinv.arrive l hl v hw ?_
  rwa [numIns_eq (d.valid.tags _ (link_dst_live d hl))] at hq

/-- **C48** Every value on an output in an execution is described by what `read_out_wire` returns,
except for the inputs of a function, case or block that the execution was started with. -/
theorem C48_outputs_partial {r : Nat} {args : List (Val W)} {a : Activation W}
    (ho : Occurs h S (Starts h vd calls inValues) r args a) (n p : Nat) (v : Val W)
    (hw : a.wires n p = some v) (hin : ¬ (StartedAt h calls r ∧ IsRegion h r ∧ ∃ o, HasIO h r n o)) :
    Describes vd (s.outOf n p) v := by
  obtain ⟨d, hlat⟩ := done_of_finished L D ht hv hK hcalls hvals hp0 hp hS hr hf
  obtain ⟨hinv, hroot⟩ := occurs_inv d hlat hS (fun n hn _ => hn) hp0 hp hcov ho
  rcases hinv.leave n p v hw with h1 | h1
  · exact h1
  · rw [hroot] at h1; exact absurd h1 hin

/-- **C48** A case that is entered is reported as reachable. -/
theorem C48_case_reachable_partial {r : Nat} {args : List (Val W)} {a : Activation W}
    (ho : Occurs h S (Starts h vd calls inValues) r args a) (c : Nat) (hc : a.entered c)
    (hne : c ≠ r) (sig : Types.Signature) (hop : h.ops c = .case sig) :
    caseReachable h s c = some true := by
  obtain ⟨d, hlat⟩ := done_of_finished L D ht hv hK hcalls hvals hp0 hp hS hr hf
  obtain ⟨hinv, hroot⟩ := occurs_inv d hlat hS (fun n hn _ => hn) hp0 hp hcov ho
  obtain ⟨g, hg, hmem⟩ := hinv.cases c sig hc (by rw [hroot]; exact hne) hop
  have hcond : ∃ rows other outs, h.ops g = .conditional rows other outs := by
    have := hv.contains c g hg
    rw [hop] at this
    unfold MayContain at this
    split at this <;> simp_all [DataflowChild]
  obtain ⟨_, _, _, hgop⟩ := hcond
  unfold caseReachable
  rw [getParent_eq ht, hg, hop]
  simp [hgop, hmem]

/-- **C48** A basic block that is entered is reported as reachable, and so is the block or exit that
it passes control to. -/
theorem C48_block_reachable_partial {r : Nat} {args : List (Val W)} {a : Activation W}
    (ho : Occurs h S (Starts h vd calls inValues) r args a) (b : Nat) (hb : a.entered b)
    (hne : b ≠ r) (ins other : List Types.Ty) (rows : List (List Types.Ty))
    (hop : h.ops b = .dataflowBlock ins other rows) : bbReachable h s b = some true ∧
    ∀ i o tag elems others row l, HasIO h b i o → Ready h a.wires o (.sum tag elems :: others) →
      rows[tag]? = some row → elems.length = row.length → l ∈ h.links → l.src = b → l.srcPort = tag →
      bbReachable h s l.dst = some true := by
  obtain ⟨d, hlat⟩ := done_of_finished L D ht hv hK hcalls hvals hp0 hp hS hr hf
  obtain ⟨hinv, hroot⟩ := occurs_inv d hlat hS (fun n hn _ => hn) hp0 hp hcov ho
  obtain ⟨g, hg, hmem⟩ := hinv.blocks b _ _ _ hb (by rw [hroot]; exact hne) hop
  obtain ⟨sig, hgop⟩ := block_parent d hop hg
  refine ⟨?_, ?_⟩
  · unfold bbReachable
    rw [getParent_eq ht, hg]
    simp [hgop, hop, hmem]
  · intro i o tag elems others row l hio hrd hrow hlen hl hsrc hport
    have hd := ready_described d hinv (io_live d hio).2 hrd
    obtain ⟨h1, _⟩ := jump_facts d (hinv.live b hb) hop hg hmem hio hd hrow hlen hl hsrc hport
    have htag : l.srcPort < rows.length := by
      rw [hport]; exact (List.getElem?_eq_some_iff.1 hrow).1
    have hpar := succ_sibling d hop hl hsrc htag hg
    obtain ⟨_, _, _, _, hbop, _, hdst⟩ := hv.blocks l hl g sig hgop
      (by rw [hsrc]; exact mem_children_of ht hg) (mem_children_of ht hpar)
    unfold bbReachable
    rw [getParent_eq ht, hpar]
    simp only [hgop]
    rcases hdst with ⟨_, _, hdst⟩ | hdst <;> rw [hdst] <;> simp [h1]

/-- **C48** `tail_loop_terminates` is right about a loop that continues and about a loop that ends. -/
theorem C48_loop_partial {r : Nat} {args : List (Val W)} {a : Activation W}
    (ho : Occurs h S (Starts h vd calls inValues) r args a) (p i o tag : Nat)
    (ji jo rest : List Types.Ty) (hop : h.ops p = .tailLoop ji jo rest) (hio : HasIO h p i o)
    (elems others : List (Val W)) (hrd : Ready h a.wires o (.sum tag elems :: others)) :
    (tag = 0 → tailLoopTerminates h s p ≠ some .neverContinues) ∧
    (tag = 1 → tailLoopTerminates h s p ≠ some .neverBreaks) := by
  obtain ⟨d, hlat⟩ := done_of_finished L D ht hv hK hcalls hvals hp0 hp hS hr hf
  obtain ⟨hinv, _⟩ := occurs_inv d hlat hS (fun n hn _ => hn) hp0 hp hcov ho
  have hsup := supports_described d.wf (ready_described d hinv (io_live d hio).2 hrd)
  unfold tailLoopTerminates
  rw [hop]
  simp only [getIo_of hio (show (body (h.ops p)).isSome = true by rw [hop]; rfl), Option.map_some,
    Termination.ofControl]
  constructor
  · rintro rfl
    rw [hsup]
    split <;> simp
  · rintro rfl
    rw [if_pos hsup]
    split <;> simp

end C48

end Verif.Dataflow
