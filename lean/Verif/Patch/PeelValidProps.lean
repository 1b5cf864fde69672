import Verif.Patch.PeelProps
import Verif.Patch.PeelValidLinks

/-!
# C72: the result of peeling a loop is valid
-/
namespace Verif.Patch

open Verif.Graph Verif.Ops Verif.Validate Verif.Passes Verif.Dataflow

variable {Meta : Type} {C : Validate.Context} {h : Hugr Ops.Op Meta}

/-- **C72** Peeling a loop makes a valid Hugr of a valid Hugr. `orig x` is the node that `x` is a copy of, or
`x` itself; the copy of a constant is a constant of the same type. The validator asks `constOk` whether the
constant at a node is of its type; a copy is as good as the original. -/
theorem C72_valid (ht : IsTree h) (hv : Valid C h) {n : Nat} (hn : h.live n = true) (hr : n ≠ h.moduleRoot)
    {ji jo rest : List Types.Ty} (hop : h.ops n = .tailLoop ji jo rest) {N : PeelNew} {copies : List Nat}
    (hnew : PeelVacant h n N copies) :
    ∃ g, ∃ orig : Nat → Nat, peelLoop h n N copies = .ok g ∧ (∀ x, h.live x = true → orig x = x) ∧
      (∀ x t, g.live x = true → g.ops x = .const t → h.live (orig x) = true ∧ h.ops (orig x) = .const t) ∧
      ((∀ x t, g.live x = true → g.ops x = .const t → C.constOk (orig x) = true → C.constOk x = true) → Valid C g) := by
  obtain ⟨r, hp⟩ := ht.has_parent n hn hr
  obtain ⟨g, i, o, nodes, μ, h1, h2, h3, h4⟩ := C72_peel ht hv hn hr hop hnew
  have z : PeelAt C h g ⟨N, n, i, o⟩ r ji jo rest nodes μ := by
    refine ⟨ht, hv, h2, hop, hp, h3, ?_⟩
    rintro x (hx | ⟨a, ha, rfl⟩)
    · exact hnew.blank x (List.mem_append_left _ hx)
    · exact hnew.blank _ (List.mem_append_right _ (h4 a ha))
  exact ⟨g, original nodes μ, h1, fun x hx => z.orig_live hx, fun x t hx ho => z.const_orig hx ho, z.valid_g⟩

/-- The hypotheses are met. -/
example : ∃ g, peelLoop roundHugr 4 roundNew [19, 20, 21, 22, 23, 24] = .ok g ∧ Valid anaContext g := by
  obtain ⟨g, orig, h1, _, _, h2⟩ := C72_valid round_valid.1 round_valid.2 (n := 4) (by decide +kernel) (by decide +kernel)
    (ji := []) (jo := []) (rest := [bool]) rfl round_vacant
  exact ⟨g, h1, h2 (fun x t _ _ hx => by first | exact hx | rfl | simpa using hx)⟩

end Verif.Patch
