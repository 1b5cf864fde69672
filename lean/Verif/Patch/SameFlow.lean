import Verif.Patch.StaticValid
import Verif.Patch.Semantics

/-!
# Links that matter

Two Hugrs that differ only in links that carry neither values, nor static data, nor control have the
same results.
-/
namespace Verif.Patch

open Verif.Graph Verif.Ops Verif.Dataflow

variable {Meta W E : Type}

/-- The link carries a value, tells a call or load what to use, or leads from one block to another. -/
def Matters (h : Hugr Ops.Op Meta) (l : Link) : Prop :=
  l.dstPort < numIns (h.ops l.dst) ∨ (h.ops l.dst).ownStaticPort = some l.dstPort ∨
  ∃ ins other rows, h.ops l.src = .dataflowBlock ins other rows ∧ l.srcPort < rows.length

variable {h g : Hugr Ops.Op Meta} {S : Sem W E}

theorem Matters.congr (hops : g.ops = h.ops) {l : Link} (hm : Matters g l) : Matters h l := by
  unfold Matters at hm ⊢; rw [hops] at hm; exact hm

theorem ready_mono (hops : g.ops = h.ops) (hl : ∀ l ∈ h.links, Matters h l → l ∈ g.links)
    {σ : Wires W} {n : Nat} {ins : List (Val W)} (hr : Ready h σ n ins) : Ready g σ n ins := by
  refine ⟨by rw [hops]; exact hr.1, fun i v hv => ?_⟩
  obtain ⟨l, h1, h2, h3, h4⟩ := hr.2 i v hv
  refine ⟨l, hl l h1 (.inl ?_), h2, h3, h4⟩
  have : i < ins.length := (List.getElem?_eq_some_iff.1 hv).1
  rw [h2, h3, ← hr.1]; exact this

theorem calls_mono (hops : g.ops = h.ops) (hl : ∀ l ∈ h.links, Matters h l → l ∈ g.links)
    {n f : Nat} {ins args : List (Val W)} (hc : Calls h n ins f args) : Calls g n ins f args := by
  cases hc with
  | direct h1 h2 h3 h4 =>
    refine .direct (by rw [hops]; exact h1) (hl _ h2 (.inr (.inl ?_))) h3 h4
    rw [h3, h1, h4]; rfl
  | indirect h1 => exact .indirect (by rw [hops]; exact h1)

theorem leaf_mono (hops : g.ops = h.ops) (hl : ∀ l ∈ h.links, Matters h l → l ∈ g.links)
    {n : Nat} {ins outs : List (Val W)} (hf : Leaf h S n ins outs) : Leaf g S n ins outs := by
  cases hf with
  | makeTuple h1 => exact .makeTuple (by rw [hops]; exact h1)
  | unpackTuple h1 h2 => exact .unpackTuple (by rw [hops]; exact h1) h2
  | tag h1 => exact .tag (by rw [hops]; exact h1)
  | loadConstant h1 h2 h3 h4 h5 =>
    refine .loadConstant (by rw [hops]; exact h1) (hl _ h2 (.inr (.inl ?_))) h3 h4
      (by rw [hops]; exact h5)
    rw [h3, h1, h4]; rfl
  | loadFunction h1 h2 h3 h4 =>
    refine .loadFunction (by rw [hops]; exact h1) (hl _ h2 (.inr (.inl ?_))) h3 h4
    rw [h3, h1, h4]; rfl
  | ext h1 h2 h3 h4 => exact .ext (by rw [hops]; exact h1) h2 h3 h4
  | external h1 h2 h3 h4 =>
    exact .external (calls_mono hops hl h1) (by unfold IsDefn; rw [hops]; exact h2)
      (by rw [hops]; exact h3) h4
  | unknown h1 h2 h3 => exact .unknown (by rw [hops]; exact h1) (by rw [hops]; exact h2) h3

/-- What runs with some links also runs with others, if those that matter are still there. -/
theorem runs_mono (hops : g.ops = h.ops) (hch : ∀ n, g.children n = h.children n)
    (hl : ∀ l ∈ h.links, Matters h l → l ∈ g.links) {t : Task W} (hr : Runs h S t) : Runs g S t := by
  induction hr with
  | graph h1 h2 h3 h4 h5 h6 h7 h8 _ h10 ih =>
    have hin : ∀ {p i o n}, Inner g p i o n → Inner h p i o n := by
      intro p i o n hi; unfold Inner at hi ⊢; rw [hch] at hi; exact hi
    exact .graph (by unfold HasIO; rw [hch]; exact h1) (by rw [hch]; exact h2) h3
      (by rw [hops]; exact h4) h5 (fun n hn => ready_mono hops hl (h6 n (hin hn)))
      (fun n hn => h7 n (hin hn)) (fun n hn => by rw [hops]; exact h8 n (hin hn))
      (fun n hn => ih n (hin hn)) (ready_mono hops hl h10)
  | leaf h1 => exact .leaf (leaf_mono hops hl h1)
  | const h1 => exact .const (by rw [hops]; exact h1)
  | dfg h1 _ ih => exact .dfg (by rw [hops]; exact h1) ih
  | cond h1 h2 h3 h4 _ ih =>
    exact .cond (by rw [hops]; exact h1) (by rw [hch]; exact h2) h3 h4 ih
  | tailLoop h1 _ ih => exact .tailLoop (by rw [hops]; exact h1) ih
  | again h1 h2 _ _ ih1 ih2 => exact .again (by rw [hops]; exact h1) h2 ih1 ih2
  | done h1 h2 _ ih => exact .done (by rw [hops]; exact h1) h2 ih
  | cfg h1 h2 _ ih => exact .cfg (by rw [hops]; exact h1) (by rw [hch]; exact h2) ih
  | jump h1 h2 h3 h4 h5 h6 h7 _ _ ih1 ih2 =>
    refine .jump (by rw [hops]; exact h1) h2 h3 (hl _ h4 (.inr (.inr ⟨_, _, _, by rw [h5]; exact h1, ?_⟩)))
      h5 h6 (by rw [hops]; exact h7) ih1 ih2
    rw [h6]; exact (List.getElem?_eq_some_iff.1 h2).1
  | exit h1 h2 h3 h4 h5 h6 h7 _ ih =>
    refine .exit (by rw [hops]; exact h1) h2 h3 (hl _ h4 (.inr (.inr ⟨_, _, _, by rw [h5]; exact h1, ?_⟩)))
      h5 h6 (by rw [hops]; exact h7) ih
    rw [h6]; exact (List.getElem?_eq_some_iff.1 h2).1
  | call h1 h2 h3 _ ih =>
    exact .call (calls_mono hops hl h1) (by unfold IsDefn; rw [hops]; exact h2)
      (by rw [hops]; exact h3) ih

/-- Hugrs with the same nodes, whose links that matter are the same, return the same. -/
theorem returns_congr (hops : g.ops = h.ops) (hch : ∀ n, g.children n = h.children n)
    (hl : ∀ l, Matters h l → (l ∈ g.links ↔ l ∈ h.links)) {f : Nat} {args outs : List (Val W)} :
    Returns g S f args outs ↔ Returns h S f args outs := by
  constructor
  · rintro ⟨h1, σ, h2⟩
    refine ⟨by unfold IsDefn at h1; rw [hops] at h1; exact h1, σ, ?_⟩
    exact runs_mono hops.symm (fun n => (hch n).symm) (fun l hm hn => (hl l (hn.congr hops)).1 hm) h2
  · rintro ⟨h1, σ, h2⟩
    exact ⟨by unfold IsDefn; rw [hops]; exact h1, σ, runs_mono hops hch (fun l hm hn => (hl l hn).2 hm) h2⟩

end Verif.Patch
