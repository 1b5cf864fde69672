import Verif.Patch.InlineCallValid
import Verif.Patch.InlineCallProps

/-!
# C54: the result of inlining a call is valid
-/
namespace Verif.Patch

open Verif.Graph Verif.Ops Verif.Passes Verif.Validate Verif.Dataflow

variable {Meta : Type} {C : Validate.Context} {h : Hugr Ops.Op Meta}

/-- **C54** Inlining a call of a function without type parameters makes a valid Hugr of a valid Hugr.
`orig x` is the node that `x` is a copy of, or `x` itself. The validator asks `constOk` whether the
constant at a node is of its type; a copy is as good as the original. -/
theorem C54_inline_valid_partial (ht : IsTree h) (hv : Valid C h) {n f : Nat} {inst : Types.Signature}
    (hc : IsCall h n f [] inst) {name : String} (hf : h.ops f = .funcDefn name ⟨[], inst⟩)
    (hout : ¬ Inside h f n) {news : List Nat} (hnew : Vacant h f news) {env : Types.Env} :
    ∃ g, ∃ orig : Nat → Nat, inlineCall env h n news = .ok g ∧ (∀ x, h.live x = true → orig x = x) ∧
      (∀ x, g.live x = true → x ≠ n → g.ops x = h.ops (orig x)) ∧
      ((∀ x, C.constOk (orig x) = true → C.constOk x = true) → Valid C g) := by
  obtain ⟨g, nodes, μ, hg, htg, ⟨h0, hem, hco⟩, hμ⟩ := C54_inline ht hv hc hf hout hnew (env := env) (by simp)
  obtain ⟨r, hr⟩ := isCall_parent ht hv hc
  obtain ⟨hn, ⟨sig', hop⟩, ⟨l, hl, h1, h2, h3⟩, honly⟩ := hc
  obtain ⟨rfl, hlen⟩ := call_target ht hv hop hf hl h1 h2 h3
  have hsub : inlineSub env [] = some := by
    funext op; unfold inlineSub; rw [if_pos rfl]
  rw [hsub] at hco
  have z : CallAt C h h0 g n f r name ⟨[], inst⟩ [] inst nodes μ :=
    ⟨ht, hv, htg, hn, hop, hf, hr, hlen, ⟨l, hl, h1, h2, h3⟩, honly, hout, hem, hco,
      fun a ha => hnew.blank _ (hμ a ha)⟩
  refine ⟨g, original nodes μ, hg, fun x hx => CallAt.orig_old (z.old hx), ?_, fun hk => z.valid_g rfl ?_⟩
  · intro x hx hne
    rcases z.cases2 hx with hx | ⟨a, ha, rfl⟩
    · rw [CallAt.orig_old (z.old hx), z.ops_old (z.old hx) hne]
    · rw [z.orig_new ha, z.ops_new ha]
  · intro a ha h1
    exact hk _ (by rw [z.orig_new ha]; exact h1)

/-- The hypotheses are met. -/
example : ∃ g, inlineCall anaContext.types swapCallHugr 4 [13, 14, 15, 16, 17, 18] = .ok g ∧ Valid anaContext g := by
  obtain ⟨g, _, h1, _, _, h2⟩ := C54_inline_valid_partial call_valid.1 call_valid.2 call_isCall rfl call_outside
    call_vacant (env := anaContext.types)
  exact ⟨g, h1, h2 fun _ _ => rfl⟩

end Verif.Patch
