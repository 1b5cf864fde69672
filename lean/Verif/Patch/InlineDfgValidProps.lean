import Verif.Patch.InlineDfgValid
import Verif.Patch.InlineDfgFindings

/-!
# C53: when inlining a DFG node keeps a Hugr valid
-/
namespace Verif.Patch

open Verif.Graph Verif.Ops Verif.Passes Verif.Validate Verif.Dataflow

variable {Meta : Type} {C : Validate.Context} {h : Hugr Ops.Op Meta}

/-- Links of values and of order stay in their region. -/
def LinksLocal (h : Hugr Ops.Op Meta) : Prop :=
  ∀ l ∈ h.links, ∀ kind, srcKind h l = some kind → kind.isStatic = false →
    h.hier.parent l.src = h.hier.parent l.dst

/-- **C53** A DFG node other than the entrypoint of a valid Hugr is inlined, and the result is valid
exactly if the order by way of the DFG node fits. Missing: that it always does, which is wrong (see
`InlineDfgFindings`). -/
theorem C53_valid_iff_partial (ht : IsTree h) (hv : Valid C h) {p d : Nat}
    (hp : h.hier.parent d = some p) {sig : Types.Signature} (hop : h.ops d = .dfg sig)
    (hde : d ≠ h.entrypoint) :
    ∃ i o rest g, h.children d = i :: o :: rest ∧ inlineDfg h d = .ok g ∧
      (Valid C g ↔ OrderFits h p d i o) := by
  obtain ⟨i, o, rest, hd⟩ := dfgAt ht hv hp hop
  obtain ⟨g, h1, h2, h3⟩ := inlined_of ht hv hd hde
  have z : Dissolved C h g p d i o sig rest := ⟨ht, hv, h2, hd, h3⟩
  exact ⟨i, o, rest, g, hd.children, h1, z.fits_of, z.valid_of⟩

/-- **C53** In a valid Hugr whose links of values and order stay in their regions, inlining a DFG node
other than the entrypoint gives a valid Hugr. Missing: links from other regions. -/
theorem C53_local_valid_partial (ht : IsTree h) (hv : Valid C h) (hl : LinksLocal h) {p d : Nat}
    (hp : h.hier.parent d = some p) {sig : Types.Signature} (hop : h.ops d = .dfg sig)
    (hde : d ≠ h.entrypoint) : ∃ g, inlineDfg h d = .ok g ∧ Valid C g := by
  obtain ⟨i, o, rest, hd⟩ := dfgAt ht hv hp hop
  obtain ⟨g, h1, h2, h3⟩ := inlined_of ht hv hd hde
  have z : Dissolved C h g p d i o sig rest := ⟨ht, hv, h2, hd, h3⟩
  have at_ : ∀ l ∈ h.links, l.src = d ∨ l.src = i ∨ l.dst = d ∨ l.dst = o →
      h.hier.parent l.src = h.hier.parent l.dst := by
    intro l m he
    obtain ⟨kind, k1, k2⟩ := z.dfg.kind hv m he
    refine hl l m kind k1 ?_
    rcases k2 with k2 | rfl
    · cases kind <;> simp [Kind.isValue, Kind.isStatic] at k2 ⊢
    · rfl
  have at_d : ∀ {n}, h.hier.parent n = some d → regionAfter h p d n = some p := fun hn => if_pos hn
  have at_p : ∀ {n}, h.hier.parent n = some p → regionAfter h p d n = some p := fun hn => by
    unfold regionAfter
    rw [hn]; split <;> rfl
  refine ⟨g, h1, z.valid_of ⟨?_, ?_⟩⟩
  · intro x y _ _ _ _ _ _ ho
    have hx : regionAfter h p d x = some p := by
      obtain ⟨l, m, rfl, e⟩ := z.ordered_src ho
      have := at_ l m (.inr (.inr e))
      rcases e with e | e
      · rw [e, hp] at this; exact at_p this
      · rw [e, hd.parentO ht] at this; exact at_d this
    have hy : regionAfter h p d y = some p := by
      rcases ho with ⟨_, _, l, m, _, _, e, rfl, _⟩ | ⟨l, m, e, rfl, _⟩
      · have := at_ l m (.inr (.inl e))
        rw [e, hd.parentI ht] at this; exact at_d this.symm
      · have := at_ l m (.inl e)
        rw [e, hp] at this; exact at_p this.symm
    rw [hx, hy]
  · intro l m t c q hk hs hc hq hqc
    have := hl l m _ hk rfl
    rw [hs, hq] at this; cases this
    exact absurd (hqc.trans (.of_parent hc)) (ht.acyclic _ _ hp)

/-- The links of `swapHugr` are local, so that both theorems apply. -/
example : LinksLocal swapHugr := by
  have : ∀ l ∈ swapHugr.links, swapHugr.hier.parent l.src = swapHugr.hier.parent l.dst := by
    decide +kernel
  exact fun l hl _ _ _ => this l hl

example : ∃ g, inlineDfg swapHugr 4 = .ok g ∧ Valid anaContext g :=
  C53_local_valid_partial swap_valid.1 swap_valid.2
    (fun l hl _ _ _ =>
      (by decide +kernel : ∀ l ∈ swapHugr.links, swapHugr.hier.parent l.src = swapHugr.hier.parent l.dst) l hl)
    (p := 1) (by decide +kernel) (sig := bool2) rfl (by decide +kernel)

/-- The DFG node 4 contains another (7), which uses the input of the function. The order that this
needs is given by links from the input to 4 and from the input of 4 to 7. -/
def keptOrderHistory : List (Cmd Ops.Op String) := lostOrderHistory ++ [.connect ⟨5, 0, 7, 0⟩]

/-- A link from an outer region does no harm where the order fits. -/
example : brokenBy anaContext (built keptOrderHistory) 4 = false ∧
    (match validate anaContext (built keptOrderHistory) with | .ok => true | _ => false) = true ∧
    (inlineDfg (built keptOrderHistory) 4).children? 1 = [2, 3, 7] := by
  decide +kernel

end Verif.Patch
