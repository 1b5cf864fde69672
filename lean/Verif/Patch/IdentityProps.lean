import Verif.Patch.IdentityLemmas
import Verif.Patch.RemoveProps

/-!
# C73: inserting an identity
-/
namespace Verif.Patch

open Verif.Graph Verif.Ops Verif.Passes Verif.Validate Verif.Dataflow

variable {Meta : Type} {C : Validate.Context} {h : Hugr Ops.Op Meta}

/-- **C73** `IdentityInsertion` at an incoming port that takes a value puts one `Noop` on the edge to that
port, next to the node, and nothing else. What comes of a valid Hugr is valid. If `Noop` gives what it
takes then functions return what they did. -/
theorem C73_insert_identity (ht : IsTree h) (hv : Valid C h) {d dp w : Nat} {t : Types.Ty} (hd : h.live d = true)
    (hk : ((h.ops d).ports .incoming)[dp]? = some (.value t)) (hw : h.live w = false) (hb : ¬ IsDefn h w)
    (hC : C.defs "prelude" "Noop" = .poly [.runtimeType .linear]) :
    ∃ g p s sp, insertIdentity h d dp w = .ok g ∧ h.hier.parent d = some p ∧ NoopPut h w p s sp d dp t g ∧
      IsTree g ∧ Valid C g ∧
      ∀ {W E : Type} (S : Sem W E), (∀ ins outs, S.ext w ins outs ↔ outs = ins) →
        ∀ f args outs, Returns g S f args outs ↔ Returns h S f args outs := by
  have hc : inCount h.links d dp = 1 := by
    rw [count_linksTo]
    exact hv.inDegree d dp _ hd hk
  obtain ⟨s, sp, hs, hlink⟩ := singleLinked_of_count hc
  have hl : (⟨s, sp, d, dp⟩ : Link) ∈ h.links := (hlink s sp).2 ⟨rfl, rfl⟩
  obtain ⟨kind, k1, k2, _, _, he⟩ := hv.kinds _ hl
  have hp : ∃ p, h.hier.parent d = some p := by
    rcases he with he | ⟨q, _, he, _⟩
    · exact ⟨_, he⟩
    · exact ⟨q, he⟩
  obtain ⟨p, hp⟩ := hp
  have hP := (ht.parent_live _ _ hp).2
  have hdw : d ≠ w := by rintro rfl; rw [hd] at hw; cases hw
  have hlive := link_live ht hv hl
  have hsw : s ≠ w := by rintro rfl; rw [hlive.1] at hw; cases hw
  have hbody : (body (h.ops p)).isSome = true :=
    body_of_value hv hp (dir := .incoming) (List.mem_of_getElem? hk) (.inl rfl)
  have hdp : dp < h.ins d := by
    rw [(hv.ports d hd).1]; exact (List.getElem?_eq_some_iff.1 hk).1
  have hspo : sp < h.outs s := by
    rw [(hv.ports s hlive.1).2]; exact (List.getElem?_eq_some_iff.1 k1).1
  let rest := h.links.filter fun l => !l.at d .incoming dp
  have hperm : h.links.Perm (⟨s, sp, d, dp⟩ :: rest) := by
    have h1 := (List.filter_append_perm (fun l : Link => l.at d .incoming dp) h.links).symm
    have h2 : h.links.filter (fun l : Link => l.at d .incoming dp) = [⟨s, sp, d, dp⟩] := by
      have hlen : (h.links.filter (fun l : Link => l.at d .incoming dp)).length = 1 := by
        rw [← List.countP_eq_length_filter, ← hc]
        exact List.countP_congr fun l _ => by simp [Link.at]
      obtain ⟨x, hx⟩ := List.length_eq_one_iff.1 hlen
      have : (⟨s, sp, d, dp⟩ : Link) ∈ h.links.filter (fun l : Link => l.at d .incoming dp) :=
        List.mem_filter.2 ⟨hl, by simp [Link.at]⟩
      rw [hx, List.mem_singleton] at this
      rw [hx, this]
    rw [h2] at h1
    exact h1
  let h1 := SetLinks h rest
  have ht1 : IsTree h1 := tree_of_eq ht rfl rfl rfl rfl rfl
  obtain ⟨a1, a2⟩ := addNodeWithParent_eq (op := noop t) ht1 (idx := w) (p := p) hw hP
  let h2 := added h1 w p (noop t) (h1.children p ++ [w])
  let g := SetLinks h2 ((rest ++ [⟨s, sp, w, 0⟩]) ++ [⟨w, 0, d, dp⟩])
  have hput : putNoop h1 w p s sp d dp t = some g := by
    unfold putNoop
    rw [a1]
    simp only
    have c1 : h2.connect ⟨s, sp, w, 0⟩ = some (SetLinks h2 (rest ++ [⟨s, sp, w, 0⟩])) := by
      refine connect_eq ?_ ?_
      · exact ⟨by simp [h2, added, upd, h1, hlive.1], by simp [h2, added, upd, h1, hsw, hspo]⟩
      · exact ⟨by simp [h2, added, upd], by simp only [setLinks_outs, h2, added, upd, if_true]; exact Nat.succ_pos 1⟩
    change (match h2.connect ⟨s, sp, w, 0⟩ with | none => none | some h2 => h2.connect ⟨w, 0, d, dp⟩) = some g
    rw [c1]
    simp only
    refine connect_eq ?_ ?_
    · exact ⟨by simp [h2, added, upd], by simp only [setLinks_outs, h2, added, upd, if_true]; exact Nat.succ_pos 1⟩
    · exact ⟨by simp [h2, added, upd, h1, hd], by simp [h2, added, upd, h1, hdw, hdp]⟩
  have htg : IsTree g := tree_of_eq a2 rfl rfl rfl rfl rfl
  have hnp : NoopPut h w p s sp d dp t g := by
    refine ⟨?_, ?_, ?_, ?_, ⟨?_, ?_⟩, ?_, rfl, ⟨rfl, rfl⟩, rest, hperm, ?_⟩
    · intro x
      by_cases e : x = w <;> simp [g, h2, added, upd, h1, e]
    · intro x
      change upd h.hier.children p (h.children p ++ [w]) x = _
      by_cases e : x = p <;> simp [upd, e, Hugr.children]
    · intro x
      change upd h.hier.parent w (some p) x = _
      by_cases e : x = w <;> simp [upd, e]
    · intro x
      change upd h.ops w (noop t) x = _
      by_cases e : x = w <;> simp [upd, e]
    · simp [g, h2, added, upd]; rfl
    · simp [g, h2, added, upd]; rfl
    · intro x e
      simp [g, h2, added, upd, h1, e]
    · change ((rest ++ [(⟨s, sp, w, 0⟩ : Link)]) ++ [(⟨w, 0, d, dp⟩ : Link)]).Perm _
      rw [List.append_assoc]
      exact List.perm_append_comm
  have z : NoopAt C h g w p s sp d dp t := ⟨ht, htg, hv, hp, hk, hw, hb, hnp, hC⟩
  refine ⟨g, p, s, sp, ?_, hp, hnp, htg, z.valid_g, fun S hS f args outs => (z.returns hS).symm⟩
  unfold insertIdentity
  rw [C10_port_kind _ _ (hv.tags d hd) dp (List.getElem?_eq_some_iff.1 hk).1, hk]
  simp only [hs]
  rw [disconnect_eq hd hdp]
  simp only
  change (match h.hier.parent d with | none => _ | some p => _) = _
  rw [hp]
  simp only
  rw [if_pos, hput]
  change OpTag.isSuperset .dataflowParent (h.ops p).opTag = true
  cases ho : h.ops p <;> rw [ho] at hbody <;> first | rfl | cases hbody

/-- **C73** `IdentityInsertion` is refused at just the ports that do not take a value, and then nothing is
changed. -/
theorem C73_insert_identity_refused (hv : Valid C h) {d dp w : Nat} (hd : h.live d = true) :
    insertIdentity h d dp w = .invalidPortKind ↔ ∀ t, ((h.ops d).ports .incoming)[dp]? ≠ some (.value t) := by
  by_cases hdp : ((h.ops d).ports .incoming).length ≤ dp
  · have hk := C10_out_of_range_kind _ _ (hv.tags d hd) dp hdp
    refine ⟨fun _ t he => (nomatch (List.getElem?_eq_none hdp).symm.trans he), fun _ => ?_⟩
    unfold insertIdentity
    rw [hk]
    cases ho : (h.ops d).otherPortKind .incoming with
    | none => rfl
    | some k =>
      have := other_isOther _ _ _ ho
      cases k with
      | value t => simp [Kind.isOther] at this
      | _ => rfl
  have hk := C10_port_kind _ _ (hv.tags d hd) dp (Nat.lt_of_not_le hdp)
  constructor
  · intro he t ht
    unfold insertIdentity at he
    rw [hk, ht] at he
    simp only at he
    repeat' (split at he)
    all_goals cases he
  · intro hn
    unfold insertIdentity
    rw [hk]
    cases hp : ((h.ops d).ports .incoming)[dp]? with
    | none => rfl
    | some k =>
      cases k with
      | value t => exact absurd hp (hn t)
      | _ => rfl

/-! ## Examples -/

/-- A context where `Noop` is known. -/
def noopContext : Validate.Context :=
  { anaContext with defs := fun e n => if e = "prelude" ∧ n = "Noop" then .poly [.runtimeType .linear] else .missing }

theorem spare_noop : Valid noopContext (spareHugr true) := by
  obtain ⟨h1, h2⟩ := built_ok (spareHistory true) (by decide +kernel) (by decide +kernel)
  exact (C47_validate_iff_partial _ _ h1 h2).1 (by decide +kernel)

/-- The links of the result. -/
def Insertion.links? : Insertion Meta → Option (List Link)
  | .ok g => some g.links
  | _ => none

/-- The hypotheses are met: an identity is put before the output of `main`. -/
example : ∃ g, insertIdentity (spareHugr true) 3 0 8 = .ok g ∧ Valid noopContext g ∧ g.children 1 = [2, 3, 5, 6, 7, 8] ∧
    g.links = [⟨4, 0, 5, 0⟩, ⟨4, 0, 6, 0⟩, ⟨6, 1, 3, 1⟩, ⟨2, 0, 6, 1⟩, ⟨5, 0, 8, 0⟩, ⟨8, 0, 3, 0⟩] := by
  obtain ⟨g, p, s, sp, h1, hp, h2, _, h3, _⟩ := C73_insert_identity (spare_valid true).1 spare_noop (d := 3) (dp := 0)
    (w := 8) (t := bool) (by decide +kernel) rfl (by decide +kernel)
    (by rintro ⟨_, _, e⟩; exact absurd e (by simp [show (spareHugr true).ops 8 = .module from rfl])) rfl
  have hp' : (spareHugr true).hier.parent 3 = some 1 := by decide +kernel
  rw [hp'] at hp; cases hp
  refine ⟨g, h1, h3, by rw [h2.children]; decide +kernel, ?_⟩
  have : (insertIdentity (spareHugr true) 3 0 8).links? =
    some [⟨4, 0, 5, 0⟩, ⟨4, 0, 6, 0⟩, ⟨6, 1, 3, 1⟩, ⟨2, 0, 6, 1⟩, ⟨5, 0, 8, 0⟩, ⟨8, 0, 3, 0⟩] := by decide +kernel
  rw [h1] at this; exact Option.some.inj this

/-- It is refused at a port for a constant and at one for order. -/
example : insertIdentity (spareHugr true) 5 0 8 = .invalidPortKind ∧ insertIdentity (spareHugr true) 3 1 8 = .invalidPortKind :=
  ⟨(C73_insert_identity_refused spare_noop (by decide +kernel)).2 (fun t e => by cases e),
   (C73_insert_identity_refused spare_noop (by decide +kernel)).2 (fun t e => by cases e)⟩

/-- Two operations that are not in a dataflow graph; not a valid Hugr. -/
def looseHugr : Hugr Ops.Op String := built
  [ .addNodeWithParent 1 0 (noop bool), .addNodeWithParent 2 0 (noop bool), .connect ⟨1, 0, 2, 0⟩ ]

/-- **C73** `IdentityInsertion` says that it leaves the Hugr as it is on failure, insert_identity.rs:80, but
when it finds that the parent is no dataflow graph it has already cut the edge, lines 96-103. -/
theorem C73_identity_unchanged_refuted : ∃ g, insertIdentity looseHugr 2 0 3 = .invalidParent g ∧
    looseHugr.links = [⟨1, 0, 2, 0⟩] ∧ g.links = [] := ⟨_, rfl, by decide +kernel, by decide +kernel⟩

end Verif.Patch
