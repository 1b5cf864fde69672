import Verif.Persistent.Findings

/-!
# C39: when a replacement is accepted
-/
namespace Verif.Persistent

theorem deletedNodes_mem {w : World} (hw : StoreOk w) {h : PHugr} (hp : PhOk w h) (id n : Nat) :
    n ∈ (deletedNodes w h id).1 ↔ ∃ d ∈ h.members, (id, n) ∈ w.deletes d := by
  have hchild : ∀ d ∈ h.members, (id, n) ∈ w.deletes d →
      ∃ q ∈ w.parents d, w.upgrade h.space id = some q := by
    intro d hd hn
    obtain ⟨q, hq, hqi⟩ := hw.owners d _ hn
    refine ⟨q, hq, ?_⟩
    have := upgrade_id hw (hw.parents_lt d q hq)
    rw [hw.spaces d q hq, hp.history.same_space d hd, ← hp.space, hqi] at this
    exact this
  unfold deletedNodes
  split
  · rename_i hnone
    constructor
    · intro hc; cases hc
    · rintro ⟨d, hd, hn⟩
      obtain ⟨q, _, hq⟩ := hchild d hd hn
      rw [hnone] at hq; cases hq
  · rename_i c hc
    obtain ⟨_, k2, _⟩ := children_spec w h c hp.nodup hp.cache
    simp only [List.mem_flatMap, mem_deletedIn]
    constructor
    · rintro ⟨d, hd, hn⟩; exact ⟨d, ((k2 d).1 hd).1, hn⟩
    · rintro ⟨d, hd, hn⟩
      obtain ⟨q, hq1, hq⟩ := hchild d hd hn
      rw [hc] at hq; cases hq
      exact ⟨d, (k2 d).2 ⟨hd, hq1⟩, hn⟩

theorem checkSiblings_result {w : World} (hw : StoreOk w) (deletes : List (Nat × Nat)) :
    ∀ (ids : List Nat) (h : PHugr), PhOk w h →
    match (checkSiblings w deletes ids h).2 with
    | none => ∀ x ∈ deletes, x.1 ∈ ids → ∀ d ∈ h.members, x ∉ w.deletes d
    | some e => ∃ id n, e = .incompatibleHistory id n ∧ (id, n) ∈ deletes ∧
        ∃ d ∈ h.members, (id, n) ∈ w.deletes d := by
  intro ids
  induction ids with
  | nil => intro h _; simp [checkSiblings]
  | cons i ids ih =>
    intro h hp
    unfold checkSiblings
    simp only []
    obtain ⟨d1, d2, d3, d4⟩ := deletedNodes_spec hp i
    have hm := deletedNodes_mem hw hp i
    cases hf : (deletedNodes w h i).1.find? fun n => (i, n) ∈ deletes with
    | some n =>
      simp only []
      have h1 := List.find?_some hf
      have h2 := List.mem_of_find?_eq_some hf
      exact ⟨i, n, rfl, by simpa using h1, (hm n).1 h2⟩
    | none =>
      simp only []
      have ih := ih _ d1
      rw [d2] at ih
      split at ih
      · rename_i hn
        intro x hx hxi d hd hc
        rcases List.mem_cons.1 hxi with h1 | h1
        · obtain ⟨a, b⟩ := x
          simp only at h1
          subst h1
          have := List.find?_eq_none.1 hf b ((hm b).2 ⟨d, hd, hc⟩)
          simp [hx] at this
        · exact ih x hx h1 d hd hc
      · exact ih

theorem getParentCommits_total {w : World} {s : Nat} : ∀ (ids : List Nat),
    (∀ i ∈ ids, ∃ c, w.upgrade s i = some c) → ∃ owners, getParentCommits w s ids = .ok owners := by
  intro ids
  induction ids with
  | nil => intro _; exact ⟨[], rfl⟩
  | cons i ids ih =>
    intro h
    obtain ⟨c, hc⟩ := h i (List.mem_cons_self ..)
    obtain ⟨cs, hcs⟩ := ih fun j hj => h j (List.mem_cons_of_mem _ hj)
    exact ⟨c :: cs, by rw [getParentCommits, hc]; simp only []; rw [hcs]⟩

/-- A replacement of nodes of commits of a history is accepted exactly when none of these nodes has
been deleted in the history. Otherwise the error names a node of the replacement that a commit of the
history deletes, and neither the store nor the history is changed. -/
theorem C39_replacement_iff (cmds : List Cmd) (st : State) (h : run start cmds = some st)
    (p : PHugr) (hp : p ∈ st.hugrs) (deletes : List (Nat × Nat)) (io : List Nat)
    (hne : deletes ≠ []) (hnd : deletes.Nodup)
    (hown : ∀ x ∈ deletes, ∃ c ∈ p.members, st.world.id c = x.1) :
    ((∃ w' p', tryAddReplacement st.world p deletes io = (w', p', none)) ↔
      ∀ x ∈ deletes, ∀ d ∈ p.members, x ∉ st.world.deletes d) ∧
    ∀ w' p' e, tryAddReplacement st.world p deletes io = (w', p', some e) →
      w' = st.world ∧ p'.members = p.members ∧ ∃ x ∈ deletes, e = .incompatibleHistory x.1 x.2 ∧
        ∃ d ∈ p.members, x ∈ st.world.deletes d := by
  have hok := reach_ok h
  have hw := hok.store.toStoreOk
  have hph := hok.hugrs p hp
  obtain ⟨w, hugrs⟩ := st
  simp only at hok hw hph hown ⊢
  have hc := checkSiblings_result hw deletes (unique (deletes.map Prod.fst)) p hph
  obtain ⟨c1, c2, c3, c4⟩ := checkSiblings_spec deletes (unique (deletes.map Prod.fst)) p hph
  unfold tryAddReplacement
  generalize checkSiblings w deletes (unique (deletes.map Prod.fst)) p = ch at *
  obtain ⟨h1, e1⟩ := ch
  cases e1 with
  | some e =>
    simp only [] at hc ⊢
    obtain ⟨id, n, rfl, h2, d, hd, h3⟩ := hc
    constructor
    · constructor
      · rintro ⟨w', p', hx⟩
        simp at hx
      · intro hx; exact absurd h3 (hx _ h2 d hd)
    · intro w' p' e hx
      simp only [Prod.mk.injEq, Option.some.injEq] at hx
      obtain ⟨rfl, rfl, rfl⟩ := hx
      exact ⟨rfl, c2, (id, n), h2, rfl, d, hd, h3⟩
  | none =>
    simp only [] at hc c1 c2 c3 c4 ⊢
    have hfree : ∀ x ∈ deletes, ∀ d ∈ p.members, x ∉ w.deletes d := fun x hx =>
      hc x hx ((mem_unique _ _).2 (List.mem_map_of_mem hx))
    have hup : ∀ c ∈ p.members, w.upgrade p.space (w.id c) = some c := by
      intro c hc
      have := upgrade_id hw (hph.history.exist c hc)
      rw [hph.history.same_space c hc, ← hph.space] at this
      exact this
    have hown' : ∀ i ∈ unique (deletes.map Prod.fst), ∃ c ∈ p.members, w.upgrade p.space i = some c := by
      intro i hi
      rw [mem_unique, List.mem_map] at hi
      obtain ⟨x, hx, rfl⟩ := hi
      obtain ⟨c, hc, hcx⟩ := hown x hx
      exact ⟨c, hc, by rw [← hcx]; exact hup c hc⟩
    obtain ⟨owners, hg⟩ := getParentCommits_total (w := w) (s := p.space) _
      fun i hi => (hown' i hi).imp fun c hc => hc.2
    obtain ⟨o1, o2⟩ := getParentCommits_ok w p.space _ _ hg
    have hom : ∀ c ∈ allParents [] owners, c ∈ p.members := by
      intro c hc
      unfold allParents at hc
      rw [mem_unique, List.nil_append] at hc
      obtain ⟨i, hi, hu⟩ := o2 c hc
      obtain ⟨c', hc', hu'⟩ := hown' i hi
      rw [hu] at hu'; cases hu'; exact hc'
    have homn : allParents [] owners ≠ [] := by
      cases deletes with
      | nil => exact absurd rfl hne
      | cons x l =>
        obtain ⟨c, hc, _⟩ := o1 x.1 ((mem_unique _ _).2 (by simp))
        intro hz
        have : c ∈ allParents [] owners := by
          unfold allParents; rw [mem_unique]; simpa using hc
        rw [hz] at this; cases this
    have hbases : (baseAncestors w (allParents [] owners)).length = 1 := by
      obtain ⟨gnd, gmem⟩ := getAncestorsWhile_spec w (fun _ => true)
        (fun c q hq => hw.parents_lt c q hq) (allParents [] owners)
        fun c hc => hph.history.exist c (hom c hc)
      have hm : ∀ x, x ∈ baseAncestors w (allParents [] owners) ↔ x = p.base := by
        intro x
        unfold baseAncestors
        rw [List.mem_filter, gmem x]
        constructor
        · rintro ⟨⟨c, hc, hv⟩, hxb⟩
          have ha := (via_true w c x).1 hv
          have hs : w.space x = w.space p.base := by
            rw [ancestor_space hw ha]; exact hph.history.same_space c (hom c hc)
          exact hw.one_base x p.base hxb ((hph.history.base_only _ hph.history.base_mem).2 rfl) hs
        · rintro rfl
          refine ⟨?_, (hph.history.base_only _ hph.history.base_mem).2 rfl⟩
          cases hal : allParents [] owners with
          | nil => exact absurd hal homn
          | cons c cs =>
            have hcm : c ∈ p.members := hom c (by rw [hal]; simp)
            obtain ⟨b, hb1, hb2, hb3⟩ := hw.base_ancestor c (hph.history.exist c hcm)
            have : b = p.base := hw.one_base b p.base hb2
              ((hph.history.base_only _ hph.history.base_mem).2 rfl)
              (hb3.trans (hph.history.same_space c hcm))
            exact ⟨c, by simp, (via_true w c _).2 (this ▸ hb1)⟩
      have hnd' : (baseAncestors w (allParents [] owners)).Nodup := gnd.filter _
      cases hf : baseAncestors w (allParents [] owners) with
      | nil =>
        have := (hm p.base).2 rfl
        rw [hf] at this; cases this
      | cons x l =>
        rw [hf] at hm hnd'
        have hx := (hm x).1 (List.mem_cons_self ..)
        cases l with
        | nil => rfl
        | cons y l =>
          have hy := (hm y).1 (List.mem_cons_of_mem _ (List.mem_cons_self ..))
          rw [hx, hy] at hnd'
          simp at hnd'
    have hcommit : tryCommit w h1.space deletes io [] =
        .ok (w ++ [⟨p.space, w.count p.space, false, deletes, io, allParents [] owners⟩]) := by
      unfold tryCommit
      rw [if_neg hne, c3, hg]
      simp only []
      rw [if_pos hbases]
    obtain ⟨s1, _⟩ := storeInv_commit w _ _ deletes io [] hok.store (by simp) hcommit
    rw [hcommit]
    simp only []
    generalize hr : (⟨p.space, w.count p.space, false, deletes, io, allParents [] owners⟩ : Rec) = r at *
    have hrd : r.deletes = deletes := by rw [← hr]
    have hrp : r.parents = allParents [] owners := by rw [← hr]
    have hrs : r.space = p.space := by rw [← hr]
    have hp1 : PhOk (w ++ [r]) h1 := phOk_append c1 r
    have hanc : ∀ a, (a ∈ h1.members ∨ ∃ c ∈ [w.length], Ancestor (w ++ [r]) c a) →
        a ∈ p.members ∨ a = w.length := by
      rintro a (ha | ⟨c, hc, ha⟩)
      · exact .inl (c2 ▸ ha)
      · rw [List.mem_singleton] at hc
        subst hc
        have key : ∀ x y, (x ∈ p.members ∨ x = w.length) → Ancestor (w ++ [r]) x y →
            (y ∈ p.members ∨ y = w.length) := by
          intro x y hx hxy
          induction hxy with
          | refl => exact hx
          | tail _ hstep ih =>
            left
            rcases ih with ih | rfl
            · rw [old_parents _ _ _ (hph.history.exist _ ih)] at hstep
              exact hph.history.parents _ ih _ hstep
            · rw [new_parents, hrp] at hstep
              exact hom _ hstep
        exact key _ _ (.inr rfl) ha
    obtain ⟨p', hadd⟩ := tryAddCommits_total s1.toStoreOk
      (distinct_append hok.distinct (by rw [hrd]; exact hnd)) hp1 [w.length]
      (by intro c hc; rw [List.mem_singleton] at hc; rw [hc]; simp)
      (by
        intro c hc
        rw [List.mem_singleton] at hc
        rw [hc, new_space, hrs, c4, old_space _ _ _ (hph.history.exist _ hph.history.base_mem), hph.space])
      (by
        intro a b ha hb hab n
        rcases hanc a ha with ha | rfl
        · have hal := hph.history.exist a ha
          rw [old_deletes _ _ _ hal]
          rcases hanc b hb with hb | rfl
          · rw [old_deletes _ _ _ (hph.history.exist b hb)]
            exact hph.history.compatible a ha b hb hab n
          · rw [new_deletes, hrd]
            intro h1 h2
            exact hfree n h2 a ha h1
        · rcases hanc b hb with hb | rfl
          · rw [old_deletes _ _ _ (hph.history.exist b hb), new_deletes, hrd]
            intro h1
            exact hfree n h1 b hb
          · exact absurd rfl hab)
    rw [hadd]
    constructor
    · exact ⟨fun _ => hfree, fun _ => ⟨_, _, rfl⟩⟩
    · intro w' p' e hx
      simp at hx

/-- Non-vacuity of `C39_replacement_iff`: node 1 of the base has been deleted by commit 1, but node 1
of commit 1 has not. -/
example : run start (exampleCmds ++ [.create [1]]) = some ⟨exampleWorld, [⟨[1, 0], 0, 0, []⟩]⟩ ∧
    (tryAddReplacement exampleWorld ⟨[1, 0], 0, 0, []⟩ [(0, 4), (0, 1)] [8, 9]).2.2 =
      some (.incompatibleHistory 0 1) ∧
    (tryAddReplacement exampleWorld ⟨[1, 0], 0, 0, []⟩ [(0, 4), (1, 1)] [8, 9]).2.2 = none := by
  refine ⟨?_, by decide +kernel, by decide +kernel⟩
  apply example_run
  decide +kernel

end Verif.Persistent
