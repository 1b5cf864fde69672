import Verif.Resolve.Induction
import Verif.Resolve.ViewLemmas
import Mathlib.Data.List.Perm.Subperm
import Mathlib.Data.List.Nodup
/-!
# Resolution and views of modules
-/
namespace Verif.Resolve
open Verif
open Verif.Binary (NodeId LinkIndex RegionId TermId Literal)
open Verif.Scope

theorem inv_new : Inv State.new [] [] [] := by
  refine ⟨rfl, rfl, symrep_new, by simp, by simp, by simp, by simp, by simp,
    by simp, by simp, by simp [State.new], by simp [State.new], by simp [State.new], by simp [State.new],
    by simp [State.new]⟩

theorem resolve_rep {drain : List NodeId → List NodeId} {m : Module} {M : Binary.Module}
    (hp : ∀ l, (drain l).Perm l) (hd : moduleDepth m ≤ 65535) (h : resolve drain m = .ok M) :
    RepModule M m ∧ M.terms.length ≤ 4294967295 := by
  obtain ⟨⟨k, srcs, tgts, cs, ms, sig⟩⟩ := m
  simp only [moduleDepth] at hd
  unfold resolve at h
  cases hr : resolveRoot (.mk k srcs tgts cs ms sig) State.new with
  | panic => simp only [hr] at h; cases h
  | error e => simp only [hr] at h; cases h
  | ok a s =>
  obtain ⟨root, ids, ms', sc⟩ := a
  simp only [hr] at h
  by_cases hlt : root.toNat < s.regions.length
  swap
  · rw [if_neg hlt] at h; cases h
  rw [if_pos hlt] at h
  simp only [Resolved.ok.injEq] at h
  simp only [resolveRoot] at hr
  obtain ⟨rid, s3, h3, hr⟩ := bind_ok hr
  obtain ⟨ids', s7, h7, hr⟩ := bind_ok hr
  obtain ⟨_, s8, h8, hr⟩ := bind_ok hr
  obtain ⟨_, s9, h9, hr⟩ := bind_ok hr
  obtain ⟨ms'', s10, h10, hr⟩ := bind_ok hr
  obtain ⟨sc', s11, h11, hr⟩ := bind_ok hr
  obtain ⟨_, s12, h12, hr⟩ := bind_ok hr
  simp only [R.ok.injEq, Prod.mk.injEq] at hr
  obtain ⟨⟨rfl, rfl, rfl, rfl⟩, rfl⟩ := hr
  unfold insertRegion at h3
  cases hid : newId State.new.regions.length with
  | none => rw [hid] at h3; cases h3
  | some rid' =>
  rw [hid] at h3
  simp only [R.ok.injEq] at h3
  obtain ⟨rfl, rfl⟩ := h3
  obtain ⟨e1, e2⟩ := newId_some hid
  have hi4 := enterRegion_ok (closed := true) inv_new hid (by simp)
  generalize hs4 : enterRegion rid' true { State.new with regions := State.new.regions ++ [defaultRegion] } = s4 at h7 hi4
  have t4n : s4.nodes = [] := by rw [← hs4]; rfl
  have t4r : s4.regions = [defaultRegion] := by rw [← hs4]; rfl
  have t4i : s4.imports = [] := by rw [← hs4]; rfl
  have e0 : rid'.toNat = 0 := by rw [e1]; rfl
  obtain ⟨hi8, st8, im8, re8, hnod, hlo, hhi, hfresh, hlen⟩ := children_ok hi4 h7 h8
  obtain ⟨ls9, k9, g9⟩ := nodes_good cs hi8 (by simp only [List.length_cons, List.length_nil]; omega) hnod hhi hfresh h9
  have g10 := terms_good ms g9.1 (by simp only [List.length_cons, List.length_nil]; omega) h10
  have hlo' : ∀ i ∈ ids'.map UInt32.toNat, s4.nodes.length ≤ i := by
    intro i hi
    obtain ⟨j, hj, rfl⟩ := List.mem_map.1 hi
    exact hlo j hj
  have st49 : Step [] s4 s9 := st8.alloc g9.2.1 hlo' im8
  have st410 : Step [] s4 s10 := st49.trans_nil g10.2.1
  simp only [enterLinks, if_pos] at k9
  cases ls9 with
  | nil => exact k9.elim
  | cons f9 r9 =>
  obtain ⟨rfl, _, _, c4, c5⟩ := k9
  obtain ⟨hi11, ⟨t11, e11⟩, q1, q2⟩ := exitLinks_ok g10.1 h11
  obtain ⟨hi12, t12, e12⟩ := exitSymbols_ok hi11 h12
  have en : s12.nodes = s10.nodes := by rw [e12, e11]
  have er : s12.regions = s10.regions := by rw [e12, e11]
  have et : s12.terms = s10.terms := by rw [e12, e11]
  have ei : s12.imports = s10.imports := by rw [e12, e11]
  subst h
  have f410 : Final (⟨rid', s12.nodes, s12.regions.set rid'.toNat ⟨.module, [], [], ids' ++ drain (s12.imports.map Prod.snd), ms'', none, some sc'⟩, s12.terms⟩ : Binary.Module) s12.imports [] s4 s10 := by
    refine ⟨fun j _ _ => by rw [en], fun j hj _ => ?_, by rw [et]; exact List.prefix_rfl, by rw [ei]; exact List.prefix_rfl⟩
    rw [t4r] at hj
    show (s12.regions.set _ _)[j]? = _
    rw [List.getElem?_set_ne (by simp at hj; omega), er]
  have f49 := f410.left_nil g10.2.1
  have r10 := g10.2.2.2 _ _ (f410.right_nil st49)
  have f89 := f49.alloc_right st8 hlo'
  have r9 := g9.2.2.2 _ _ f89 f9.names List.prefix_rfl
  have hs0 : scopesFor [] = [] := rfl
  simp only [envFor, scopesFor_introduced, hs0, List.head?_nil, Option.map_none] at r9 r10
  refine ⟨?_, by show s12.terms.length ≤ _; exact hi12.terms⟩
  refine ⟨_, f9.names, s12.imports, ids', drain (s12.imports.map Prod.snd), List.getElem?_set_self hlt, rfl, rfl, rfl, rfl,
    ⟨g10.1.linkNames f9 (by simp), fun x => by simpa using c4 x, sc', rfl, q1, by rw [q2, c5]; simp⟩, rfl, hp _, hi12.importNames,
    fun x => ?_, fun p hpm => ?_, ?_, ?_, ?_⟩
  · rw [ei, g10.2.2.1 x, g9.2.2.1 x, im8, t4i, lookup_enter hlen.symm]
    simp only [FreeModule, List.map_nil, List.not_mem_nil, false_or, SymSpec.lookup]
    tauto
  · rw [ei] at hpm
    rcases st410.fresh p hpm with h | ⟨_, _, h⟩
    · rw [t4i] at h; cases h
    · show s12.nodes[_]? = _
      rw [en]; exact h
  · have := g9.1.symbols.2.2.2.names _ (List.mem_cons_self ..)
    simpa [List.map_map, Function.comp_def] using this
  · exact r9
  · exact r10

/-- The imports at the end of the root. -/
theorem imports_view {m : Binary.Module} {imports : List (String × NodeId)}
    (h : ∀ p ∈ imports, m.nodes[p.2.toNat]? = some ⟨.import p.1, [], [], [], [], none⟩) :
    ∀ {rest : List NodeId}, (∀ i ∈ rest, i ∈ imports.map Prod.snd) → ∃ xs : List String, xs.length = rest.length ∧
      (∀ j (h1 : j < xs.length) (h2 : j < rest.length), (xs[j], rest[j]) ∈ imports) ∧
      ∀ f, collect (viewNode m (f + 1)) rest = .ok (xs.map fun x => .mk (.import x) [] [] [] [] none)
  | [], _ => ⟨[], rfl, by simp, fun _ => rfl⟩
  | i :: rest, hm => by
    obtain ⟨xs, h1, h2, h3⟩ := imports_view h (rest := rest) fun j hj => hm j (by simp [hj])
    obtain ⟨p, hp, rfl⟩ := List.mem_map.1 (hm i (by simp))
    refine ⟨p.1 :: xs, by simp [h1], ?_, fun f => ?_⟩
    · intro j hj1 hj2
      cases j with
      | zero => exact hp
      | succ j => exact h2 j (by simpa using hj1) (by simpa using hj2)
    · have hv : viewNode m (f + 1) p.2 = .ok (.mk (.import p.1) [] [] [] [] none) := by
        simp [viewNode, h p hp, viewOperation, collectOption, collect, V.bind]
      simp only [collect, h3, hv, V.bind, List.map_cons]

theorem collect_append {α β : Type} (f : α → V β) : ∀ (a b : List α), collect f (a ++ b) =
    (collect f a).bind fun x => (collect f b).bind fun y => .ok (x ++ y)
  | [], b => by
    simp only [collect, List.nil_append, V.bind]
    cases collect f b <;> rfl
  | a :: as, b => by
    simp only [collect, List.cons_append, collect_append f as b]
    cases f a with
    | ok v =>
      simp only [V.bind]
      cases collect f as with
      | ok vs =>
        simp only []
        cases collect f b <;> rfl
      | none => rfl
      | panic => rfl
      | more => rfl
    | none => rfl
    | panic => rfl
    | more => rfl

theorem names_perm {imports : List (String × NodeId)} {rest : List NodeId} {xs : List String}
    (hd : (imports.map Prod.snd).Nodup) (hp : rest.Perm (imports.map Prod.snd)) (hl : xs.length = rest.length)
    (h : ∀ j (h1 : j < xs.length) (h2 : j < rest.length), (xs[j], rest[j]) ∈ imports) :
    xs.Perm (imports.map Prod.fst) := by
  have hz : (xs.zip rest).Perm imports := by
    have hn : (xs.zip rest).Nodup := by
      have : ((xs.zip rest).map Prod.snd).Nodup := by
        rw [List.map_snd_zip (by omega)]
        exact hp.nodup_iff.2 hd
      exact List.Nodup.of_map _ this
    have hs : (xs.zip rest) ⊆ imports := by
      intro p hp
      obtain ⟨j, hj, rfl⟩ := List.getElem_of_mem hp
      rw [List.getElem_zip]
      exact h j _ _
    have hlen : imports.length ≤ (xs.zip rest).length := by
      have := hp.length_eq
      simp at this
      simp; omega
    exact (List.subperm_of_subset hn hs).perm_of_length_le hlen
  have := hz.map Prod.fst
  rwa [List.map_fst_zip (by omega)] at this

theorem rep_view {m : Binary.Module} {a : Module} (hm : m.terms.length ≤ 4294967295) (h : RepModule m a) :
    ∃ F a' imports, imports.Nodup ∧ (∀ x, x ∈ imports ↔ FreeModule x a) ∧ SameModule imports a a' ∧
      ∀ f, F ≤ f → asAst m f = .ok a' := by
  obtain ⟨⟨k, srcs, tgts, cs, ms, sig⟩⟩ := a
  obtain ⟨r, names, imports, ids, rest, hr, hk, hsrc, htgt, hsig, hsc, hch, hperm, hin, hif, hnode, hnd, hcs, hms⟩ := h
  have he : EnvOk m ⟨[introduced cs ids], none, imports⟩ := by
    have h0 : EnvOk m ⟨[], none, imports⟩ := by
      refine ⟨fun x n hx => ?_, fun n ns hx => by cases hx⟩
      simp only [Env.symbol, lookupScopes] at hx
      rw [List.lookup_eq_some_iff] at hx
      obtain ⟨l1, l2, rfl, _⟩ := hx
      exact ⟨_, hnode (x, n) (by simp), rfl⟩
    exact h0.enter hcs
  have hsnd : (imports.map Prod.snd).Nodup := by
    rw [List.nodup_map_iff_inj_on (List.Nodup.of_map _ hin)]
    intro p hp q hq e
    have h1 := hnode p hp
    have h2 := hnode q hq
    rw [e, h2] at h1
    simp only [Option.some.injEq, Binary.Node.mk.injEq, Binary.Operation.import.injEq, and_true] at h1
    exact Prod.ext h1.symm e
  obtain ⟨xs, hx1, hx2, hx3⟩ := imports_view hnode (rest := rest) fun i hi => hperm.mem_iff.1 hi
  have hxp := names_perm hsnd hperm hx1 hx2
  obtain ⟨F1, ms', hm1, hm2⟩ := terms_view hm ms _ r.meta he hms
  obtain ⟨F2, cs', hc1, hc2⟩ := nodes_view hm cs _ names ids he hsc.1 hcs
  refine ⟨F1 + F2 + 2, ⟨.mk .module [] [] (cs' ++ xs.map fun x => .mk (.import x) [] [] [] [] none) ms' none⟩, xs,
    hxp.nodup_iff.2 hin, fun x => by rw [hxp.mem_iff]; exact hif x, ?_, fun f hf => ?_⟩
  · exact ⟨linkName names, cs', ms', fun x hx y _ hxy => linkName_inj ((hsc.2.1 x).2 hx) hxy, rfl, hc1, hm1⟩
  · obtain ⟨g, rfl, hg⟩ := le_succ_cases (F := F1 + F2 + 1) hf
    obtain ⟨g, rfl, hg⟩ := le_succ_cases (F := F1 + F2) hg
    simp only [asAst, viewRegion, hr, hch, collect_append, hm2 (g + 1) (by omega), hc2 (g + 1) (by omega), hx3, hsig,
      collectOption, V.bind, hk, hsrc, htgt, List.map_nil]

end Verif.Resolve
