import Verif.Persistent.HistoryLemmas

/-!
# C39: persistent HUGRs are histories without conflicts
-/
namespace Verif.Persistent

theorem phOk_append {w : World} {h : PHugr} (hp : PhOk w h) (r : Rec) : PhOk (w ++ [r]) h := by
  have hex := hp.history.exist
  have hb := hex _ hp.history.base_mem
  refine ⟨⟨?_, hp.history.base_mem, ?_, ?_, ?_, ?_⟩, hp.nodup, ?_, ?_⟩
  · intro c hc
    have := hex c hc
    simp only [List.length_append, List.length_cons, List.length_nil]
    omega
  · intro c hc
    rw [old_isBase _ _ _ (hex c hc)]
    exact hp.history.base_only c hc
  · intro c hc
    rw [old_parents _ _ _ (hex c hc)]
    exact hp.history.parents c hc
  · intro c hc
    rw [old_space _ _ _ (hex c hc), old_space _ _ _ hb]
    exact hp.history.same_space c hc
  · intro c hc d hd
    rw [old_deletes _ _ _ (hex c hc), old_deletes _ _ _ (hex d hd)]
    exact hp.history.compatible c hc d hd
  · rw [old_space _ _ _ hb]
    exact hp.space
  · intro c cs hl
    refine ⟨(hp.cache c cs hl).1, fun d => ?_⟩
    rw [(hp.cache c cs hl).2 d]
    constructor
    · rintro ⟨a, b⟩
      exact ⟨a, by rw [old_parents _ _ _ (hex d a)]; exact b⟩
    · rintro ⟨a, b⟩
      exact ⟨a, by rw [old_parents _ _ _ (hex d a)] at b; exact b⟩

theorem phOk_children {w : World} {h : PHugr} (hp : PhOk w h) (c : Nat) :
    PhOk w (h.children w c).2 := by
  obtain ⟨_, _, k3, k4, k5, k6⟩ := children_spec w h c hp.nodup hp.cache
  refine ⟨?_, ?_, ?_, k3⟩
  · rw [k4, k6]
    exact hp.history
  · rw [k4]
    exact hp.nodup
  · rw [k5, k6]
    exact hp.space

theorem deletedNodes_spec {w : World} {h : PHugr} (hp : PhOk w h) (id : Nat) :
    PhOk w (deletedNodes w h id).2 ∧ (deletedNodes w h id).2.members = h.members ∧
      (deletedNodes w h id).2.space = h.space ∧ (deletedNodes w h id).2.base = h.base := by
  unfold deletedNodes
  split
  · exact ⟨hp, rfl, rfl, rfl⟩
  · rename_i c _
    obtain ⟨_, _, _, k4, k5, k6⟩ := children_spec w h c hp.nodup hp.cache
    exact ⟨phOk_children hp c, k4, k5, k6⟩

theorem checkSiblings_spec {w : World} (deletes : List (Nat × Nat)) : ∀ (ids : List Nat) (h : PHugr),
    PhOk w h → PhOk w (checkSiblings w deletes ids h).1 ∧
      (checkSiblings w deletes ids h).1.members = h.members ∧
      (checkSiblings w deletes ids h).1.space = h.space ∧
      (checkSiblings w deletes ids h).1.base = h.base := by
  intro ids
  induction ids with
  | nil => intro h hp; exact ⟨hp, rfl, rfl, rfl⟩
  | cons i ids ih =>
    intro h hp
    unfold checkSiblings
    simp only []
    obtain ⟨d1, d2, d3, d4⟩ := deletedNodes_spec hp i
    split
    · exact ⟨d1, d2, d3, d4⟩
    · obtain ⟨e1, e2, e3, e4⟩ := ih _ d1
      exact ⟨e1, e2.trans d2, e3.trans d3, e4.trans d4⟩

theorem tryAddReplacement_ok {w w' : World} {h h' : PHugr} {deletes : List (Nat × Nat)}
    {io : List Nat} (hw : StoreInv w) (hp : PhOk w h)
    (hh : tryAddReplacement w h deletes io = (w', h', none)) :
    StoreInv w' ∧ PhOk w' h' ∧
      ∃ r : Rec, w' = w ++ [r] ∧ r.deletes = deletes ∧ r.io = io ∧ h'.base = h.base ∧
        ∀ x, x ∈ h'.members ↔ x ∈ h.members ∨ Ancestor w' w.length x := by
  unfold tryAddReplacement at hh
  obtain ⟨c1, c2, c3, c4⟩ := checkSiblings_spec deletes (unique (deletes.map Prod.fst)) h hp
  generalize checkSiblings w deletes (unique (deletes.map Prod.fst)) h = ch at *
  obtain ⟨h1, e1⟩ := ch
  cases e1 with
  | some e =>
    simp only [] at hh
    injection hh with _ hh
    injection hh with _ hh
    cases hh
  | none =>
    simp only [] at hh c1 c2 c3 c4
    split at hh
    · injection hh with _ hh
      injection hh with _ hh
      cases hh
    · rename_i w1 hcom
      injection hh with ha hh
      subst ha
      obtain ⟨s1, r, hr, _, hrd, _, _, hrio⟩ := storeInv_commit w w1 _ deletes io [] hw (by simp) hcom
      have hp1 : PhOk w1 h1 := by rw [hr]; exact phOk_append c1 r
      have hlen : ∀ c ∈ [w.length], c < w1.length := by
        intro c hc
        rw [List.mem_singleton] at hc
        rw [hc, hr]
        simp
      generalize hres : tryAddCommits w1 h1 [w.length] = res at *
      obtain ⟨h2, e2⟩ := res
      simp only [Prod.mk.injEq] at hh
      obtain ⟨rfl, rfl⟩ := hh
      obtain ⟨a, _, hbase, b⟩ := tryAddCommits_ok w1 s1.toStoreOk h1 _ _ hlen hp1 hres
      refine ⟨s1, a, r, hr, hrd, hrio, hbase.trans c4, fun x => ?_⟩
      rw [b x, c2]
      simp

/-- The invariant of the commits and persistent HUGRs made so far. -/
structure StateOk (st : State) : Prop where
  store : StoreInv st.world
  distinct : DistinctDeletes st.world
  hugrs : ∀ h ∈ st.hugrs, PhOk st.world h

theorem distinct_append {w : World} {r : Rec} (hw : DistinctDeletes w) (hr : r.deletes.Nodup) :
    DistinctDeletes (w ++ [r]) := by
  intro c
  by_cases hc : c < w.length
  · rw [old_deletes _ _ _ hc]
    exact hw c
  · by_cases hc2 : c = w.length
    · rw [hc2, new_deletes]
      exact hr
    · have : World.deletes (w ++ [r]) c = [] := by
        unfold World.deletes
        rw [getElem?_append_one, if_neg hc, if_neg hc2]
        rfl
      rw [this]
      exact List.nodup_nil

theorem mem_set_or {l : List PHugr} {i : Nat} {a b : PHugr} (h : a ∈ l.set i b) : a ∈ l ∨ a = b :=
  List.mem_or_eq_of_mem_set h

theorem step_ok (st st' : State) (cmd : Cmd) (hst : StateOk st) (h : step st cmd = some st') :
    StateOk st' := by
  obtain ⟨hw, hd, hh⟩ := hst
  cases cmd with
  | setBase s =>
    simp only [step] at h
    split at h
    · cases h
    rename_i w hw'
    injection h with h
    subst h
    obtain ⟨a, r, hr⟩ := storeInv_setBase _ _ s hw hw'
    refine ⟨a, ?_, fun x hx => by rw [hr]; exact phOk_append (hh x hx) r⟩
    unfold trySetBase at hw'
    split at hw'
    · injection hw' with hw'
      subst hw'
      exact distinct_append hd List.nodup_nil
    · cases hw'
  | commit s deletes io explicit =>
    simp only [step] at h
    split at h
    case isFalse => cases h
    rename_i hex
    split at h
    · cases h
    rename_i w hw'
    injection h with h
    subst h
    obtain ⟨a, r, hr, _, hrd, _⟩ := storeInv_commit _ _ s deletes io explicit hw hex.1 hw'
    refine ⟨a, ?_, fun x hx => by rw [hr]; exact phOk_append (hh x hx) r⟩
    rw [hr]
    exact distinct_append hd (by rw [hrd]; exact hex.2)
  | create commits =>
    simp only [step] at h
    split at h
    case isFalse => cases h
    rename_i hex
    split at h
    · cases h
    rename_i x hx
    injection h with h
    subst h
    refine ⟨hw, hd, fun y hy => ?_⟩
    rcases List.mem_append.1 hy with hy | hy
    · exact hh y hy
    · rw [List.mem_singleton] at hy
      subst hy
      exact (tryNew_ok _ hw.toStoreOk _ _ hex hx).1
  | clone i =>
    simp only [step] at h
    split at h
    · cases h
    rename_i x hx
    injection h with h
    subst h
    refine ⟨hw, hd, fun y hy => ?_⟩
    rcases List.mem_append.1 hy with hy | hy
    · exact hh y hy
    · rw [List.mem_singleton] at hy
      subst hy
      exact hh y (List.mem_of_getElem? hx)
  | addCommits i commits =>
    simp only [step] at h
    split at h
    case isFalse => cases h
    rename_i hex
    split at h
    · cases h
    rename_i x hx
    split at h
    · cases h
    rename_i h' hadd
    injection h with h
    subst h
    refine ⟨hw, hd, fun y hy => ?_⟩
    rcases mem_set_or hy with hy | rfl
    · exact hh y hy
    · exact (tryAddCommits_ok _ hw.toStoreOk _ _ _ hex (hh x (List.mem_of_getElem? hx)) hadd).1
  | addReplacement i deletes io =>
    simp only [step] at h
    split at h
    case isFalse => cases h
    rename_i hnd
    split at h
    · cases h
    rename_i x hx
    split at h
    · cases h
    rename_i w h' hadd
    injection h with h
    subst h
    obtain ⟨a, b, r, hr, hrd, _⟩ := tryAddReplacement_ok hw (hh x (List.mem_of_getElem? hx)) hadd
    refine ⟨a, ?_, fun y hy => ?_⟩
    · rw [hr]
      exact distinct_append hd (by rw [hrd]; exact hnd)
    · rcases mem_set_or hy with hy | rfl
      · rw [hr]
        exact phOk_append (hh y hy) r
      · exact b
  | lookChildren i c =>
    simp only [step] at h
    split at h
    · cases h
    rename_i x hx
    injection h with h
    subst h
    refine ⟨hw, hd, fun y hy => ?_⟩
    rcases mem_set_or hy with hy | rfl
    · exact hh y hy
    · exact phOk_children (hh x (List.mem_of_getElem? hx)) c

theorem run_ok : ∀ (cmds : List Cmd) (st st' : State), StateOk st → run st cmds = some st' →
    StateOk st' := by
  intro cmds
  induction cmds with
  | nil =>
    intro st st' hst h
    simp only [run] at h
    injection h with h
    exact h ▸ hst
  | cons c cmds ih =>
    intro st st' hst h
    simp only [run] at h
    split at h
    · cases h
    rename_i st1 h1
    exact ih st1 st' (step_ok st st1 c hst h1) h

theorem reach_ok {cmds : List Cmd} {st : State} (h : run start cmds = some st) : StateOk st := by
  refine run_ok cmds start st ⟨storeInv_nil, ?_, ?_⟩ h
  · intro c
    simp [start, World.deletes]
  · intro x hx
    cases hx

/-! ### The properties -/

/-- After any sequence of successful calls, the store of commits is well formed: parents are older,
lie in the same state space and include the owners of all deleted nodes, and a state space has one
base. -/
theorem C39_store (cmds : List Cmd) (st : State) (h : run start cmds = some st) :
    StoreOk st.world := (reach_ok h).store.toStoreOk

/-- After any sequence of successful calls, every persistent HUGR is a history: exactly one base
commit, all parents present, and no node deleted twice. The children of a commit are listed
correctly, through the cache. -/
theorem C39_histories (cmds : List Cmd) (st : State) (h : run start cmds = some st) :
    ∀ p ∈ st.hugrs, IsHistory st.world p.members p.base ∧
      ∀ c d, d ∈ (p.children st.world c).1 ↔ d ∈ p.members ∧ c ∈ st.world.parents d := by
  intro p hp
  have hok := (reach_ok h).hugrs p hp
  exact ⟨hok.history, fun c d => (children_spec _ p c hok.nodup hok.cache).2.1 d⟩

/-- `find_conflicting_node` reports only nodes deleted by two children, and reports one if there is
any. -/
theorem C39_find_conflicting (w : World) (id : Nat) (children : List Nat) (hn : children.Nodup)
    (hd : ∀ c ∈ children, (w.deletes c).Nodup) :
    (∀ m, findConflictingNode w id children = some m →
      ∃ c ∈ children, ∃ d ∈ children, c ≠ d ∧ (id, m) ∈ w.deletes c ∧ (id, m) ∈ w.deletes d) ∧
    (findConflictingNode w id children = none ↔
      ∀ c ∈ children, ∀ d ∈ children, c ≠ d → ∀ m,
        ¬((id, m) ∈ w.deletes c ∧ (id, m) ∈ w.deletes d)) := by
  refine ⟨fun m => conflict w id m children hn hd, ?_, ?_⟩
  · intro h c hc d hd' hcd m
    exact noConflict w id children h hc hd' hcd m
  · intro h
    cases hf : findConflictingNode w id children with
    | none => rfl
    | some m =>
      obtain ⟨c, hc, d, hd', hcd, hm⟩ := conflict w id m children hn hd hf
      exact absurd hm (h c hc d hd' hcd m)

/-- `try_new` succeeds exactly when some commit is given, all are in one state space, and no two
of them or their ancestors delete the same node. The history consists of the commits and their
ancestors. -/
theorem C39_try_new (cmds : List Cmd) (st : State) (h : run start cmds = some st)
    (commits : List Nat) (hlt : ∀ c ∈ commits, c < st.world.length) :
    (∀ p, tryNew st.world commits = .ok p →
      ∀ x, x ∈ p.members ↔ ∃ c ∈ commits, Ancestor st.world c x) ∧
    ((∃ p, tryNew st.world commits = .ok p) ↔
      commits ≠ [] ∧ (∀ c ∈ commits, ∀ d ∈ commits, st.world.space c = st.world.space d) ∧
      ∀ a b, (∃ c ∈ commits, Ancestor st.world c a) → (∃ c ∈ commits, Ancestor st.world c b) →
        a ≠ b → ∀ n ∈ st.world.deletes a, n ∉ st.world.deletes b) := by
  have hok := reach_ok h
  have hw := hok.store.toStoreOk
  refine ⟨fun p hp => (tryNew_ok _ hw p commits hlt hp).2, ?_, ?_⟩
  · rintro ⟨p, hp⟩
    obtain ⟨a, b⟩ := tryNew_ok _ hw p commits hlt hp
    have hmem : ∀ c ∈ commits, c ∈ p.members := fun c hc => (b c).2 ⟨c, hc, .refl⟩
    refine ⟨?_, ?_, ?_⟩
    · rintro rfl
      obtain ⟨_, hc, _⟩ := (b _).1 a.history.base_mem
      cases hc
    · intro c hc d hd
      rw [a.history.same_space c (hmem c hc), a.history.same_space d (hmem d hd)]
    · intro x y hx hy hxy
      exact a.history.compatible x ((b x).2 hx) y ((b y).2 hy) hxy
  · rintro ⟨hne, hsp, hcomp⟩
    obtain ⟨gnd, gmem⟩ := getAncestorsWhile_spec st.world (fun _ => true)
      (fun c p hp => hw.parents_lt c p hp) commits hlt
    have gmem' : ∀ x, x ∈ getAncestorsWhile st.world (fun _ => true) commits ↔
        ∃ c ∈ commits, Ancestor st.world c x := by
      intro x
      rw [gmem x]
      simp only [via_true]
    unfold tryNew
    generalize getAncestorsWhile st.world (fun _ => true) commits = all at *
    cases all with
    | nil =>
      exfalso
      cases commits with
      | nil => exact hne rfl
      | cons c cs =>
        have := (gmem' c).2 ⟨c, List.mem_cons_self .., .refl⟩
        cases this
    | cons front rest =>
      simp only []
      have hfront : front ∈ front :: rest := List.mem_cons_self ..
      generalize hall : front :: rest = all at *
      have hsp' : ∀ x ∈ all, st.world.space x = st.world.space front := by
        intro x hx
        obtain ⟨c, hc, ha⟩ := (gmem' x).1 hx
        obtain ⟨d, hd, hb⟩ := (gmem' front).1 hfront
        rw [ancestor_space hw ha, ancestor_space hw hb]
        exact hsp c hc d hd
      split
      · rename_i e he
        exfalso
        rcases tryNewLoop_err _ _ _ _ _ he with ⟨_, c, hc, hs⟩ | ⟨c, _, n, _, hf⟩
        · exact hs (hsp' c hc)
        · have hnd : ((graphChildren st.world (List.range st.world.length) c).filter
              fun d => d ∈ all).Nodup := by
            unfold graphChildren
            exact (List.nodup_range.filter _).filter _
          obtain ⟨a, ha, b, hb, hab, h1, h2⟩ := conflict _ _ _ _ hnd (fun x _ => hok.distinct x) hf
          rw [List.mem_filter] at ha hb
          exact hcomp a b ((gmem' a).1 (by simpa using ha.2)) ((gmem' b).1 (by simpa using hb.2))
            hab _ h1 h2
      · obtain ⟨c0, hc0, ha0⟩ := (gmem' front).1 hfront
        have hflt : front < st.world.length := ancestor_lt hw (hlt c0 hc0) ha0
        obtain ⟨b, hb1, hb2, hb3⟩ := hw.base_ancestor front hflt
        have hb : all.filter st.world.isBase = [b] := by
          have hm : ∀ x, x ∈ all.filter st.world.isBase ↔ x = b := by
            intro x
            rw [List.mem_filter]
            constructor
            · rintro ⟨hx, hxb⟩
              exact hw.one_base x b hxb hb2 ((hsp' x hx).trans hb3.symm)
            · rintro rfl
              exact ⟨(gmem' x).2 ⟨c0, hc0, ha0.trans hb1⟩, hb2⟩
          have hnd : (all.filter st.world.isBase).Nodup := gnd.filter _
          cases hf : all.filter st.world.isBase with
          | nil =>
            have := (hm b).2 rfl
            rw [hf] at this
            cases this
          | cons x l =>
            rw [hf] at hm hnd
            have hx := (hm x).1 (List.mem_cons_self ..)
            cases l with
            | nil => rw [hx]
            | cons y l =>
              have hy := (hm y).1 (List.mem_cons_of_mem _ (List.mem_cons_self ..))
              rw [hx, hy] at hnd
              simp at hnd
        rw [hb]
        exact ⟨_, rfl⟩

theorem tryAddCommits_total {w : World} (hw : StoreOk w) (hdd : DistinctDeletes w) {p : PHugr}
    (hph : PhOk w p) (commits : List Nat) (hlt : ∀ c ∈ commits, c < w.length)
    (hsp : ∀ c ∈ commits, w.space c = w.space p.base)
    (hcomp : ∀ a b, (a ∈ p.members ∨ ∃ c ∈ commits, Ancestor w c a) →
        (b ∈ p.members ∨ ∃ c ∈ commits, Ancestor w c b) →
        a ≠ b → ∀ n ∈ w.deletes a, n ∉ w.deletes b) :
    ∃ p', tryAddCommits w p commits = (p', none) := by
  obtain ⟨gnd, gmem⟩ := getAncestorsWhile_spec w (fun c => c ∉ p.members)
    (fun c q hq => hw.parents_lt c q hq) commits hlt
  unfold tryAddCommits
  simp only []
  generalize getAncestorsWhile w (fun c => c ∉ p.members) commits = new at *
  have hanc : ∀ x ∈ new, ∃ c ∈ commits, Ancestor w c x := by
    intro x hx
    obtain ⟨c, hc, hv⟩ := (gmem x).1 hx
    exact ⟨c, hc, ancestor_of_via hv⟩
  generalize hres : tryAddLoop w new new.reverse p = res
  obtain ⟨p', e⟩ := res
  cases e with
  | none => exact ⟨p', rfl⟩
  | some e =>
    exfalso
    rcases tryAddLoop_err _ new gnd hdd _ _ _ _ hres hph.nodup hph.cache with
      ⟨_, c, hc, hs⟩ | ⟨n, c, _, _, d, f, hd, hf, hdf, h1, h2⟩
    · rw [List.mem_reverse] at hc
      obtain ⟨c0, hc0, ha⟩ := hanc c hc
      apply hs
      rw [ancestor_space hw ha, hsp c0 hc0, hph.space]
    · simp only [List.mem_reverse, or_self] at hd hf
      exact hcomp d f (hd.imp id (hanc d)) (hf.imp id (hanc f)) hdf _ h1 h2

/-- `try_add_commits` succeeds exactly when the given commits are in the state space of the history,
and no two of the commits of the history, the given ones and their ancestors delete the same node.
The new history consists of these commits. -/
theorem C39_try_add_commits (cmds : List Cmd) (st : State) (h : run start cmds = some st)
    (p : PHugr) (hp : p ∈ st.hugrs) (commits : List Nat)
    (hlt : ∀ c ∈ commits, c < st.world.length) :
    (∀ p', tryAddCommits st.world p commits = (p', none) → p'.base = p.base ∧
      ∀ x, x ∈ p'.members ↔ x ∈ p.members ∨ ∃ c ∈ commits, Ancestor st.world c x) ∧
    ((∃ p', tryAddCommits st.world p commits = (p', none)) ↔
      (∀ c ∈ commits, st.world.space c = st.world.space p.base) ∧
      ∀ a b, (a ∈ p.members ∨ ∃ c ∈ commits, Ancestor st.world c a) →
        (b ∈ p.members ∨ ∃ c ∈ commits, Ancestor st.world c b) →
        a ≠ b → ∀ n ∈ st.world.deletes a, n ∉ st.world.deletes b) := by
  have hok := reach_ok h
  have hw := hok.store.toStoreOk
  have hph := hok.hugrs p hp
  refine ⟨fun p' hp' => ?_, ?_, ?_⟩
  · obtain ⟨_, _, a, b⟩ := tryAddCommits_ok _ hw p p' commits hlt hph hp'
    exact ⟨a, b⟩
  · rintro ⟨p', hp'⟩
    obtain ⟨a, _, b, c⟩ := tryAddCommits_ok _ hw p p' commits hlt hph hp'
    refine ⟨?_, ?_⟩
    · intro x hx
      rw [← b]
      exact a.history.same_space x ((c x).2 (Or.inr ⟨x, hx, .refl⟩))
    · intro x y hx hy hxy
      exact a.history.compatible x ((c x).2 hx) y ((c y).2 hy) hxy
  · rintro ⟨hsp, hcomp⟩
    exact tryAddCommits_total hw hok.distinct hph commits hlt hsp hcomp

/-- After `try_add_replacement` succeeds there is one more commit, with the given replacement, and
the history consists of the former commits, the new one and its ancestors. -/
theorem C39_try_add_replacement (cmds : List Cmd) (st : State) (h : run start cmds = some st)
    (p p' : PHugr) (hp : p ∈ st.hugrs) (w' : World) (deletes : List (Nat × Nat)) (io : List Nat)
    (hadd : tryAddReplacement st.world p deletes io = (w', p', none)) :
    IsHistory w' p'.members p'.base ∧ p'.base = p.base ∧ w'.length = st.world.length + 1 ∧
      w'.deletes st.world.length = deletes ∧
      ∀ x, x ∈ p'.members ↔ x ∈ p.members ∨ Ancestor w' st.world.length x := by
  have hok := reach_ok h
  obtain ⟨_, a, r, hr, hrd, _, hb, hm⟩ := tryAddReplacement_ok hok.store (hok.hugrs p hp) hadd
  refine ⟨a.history, hb, ?_, ?_, hm⟩
  · rw [hr]
    simp
  · rw [hr, new_deletes, hrd]

theorem isValidLoop_ok (w : World) (hd : DistinctDeletes w) : ∀ (cs : List Nat) (f : Bool)
    (h : PHugr), PhOk w h → (∀ c ∈ cs, c ∈ h.members) → (f = true ∨ h.base ∈ cs) →
    isValidLoop w cs f h = .ok () := by
  intro cs
  induction cs with
  | nil =>
    intro f h hp _ hf
    rcases hf with hf | hf
    · simp [isValidLoop, hf]
    · cases hf
  | cons c cs ih =>
    intro f h hp hcs hf
    unfold isValidLoop
    have hc := hcs c (List.mem_cons_self ..)
    have h1 : ¬((w.isBase c && decide (c ≠ h.base)) = true) := by
      intro hx
      simp only [Bool.and_eq_true, decide_eq_true_eq] at hx
      exact hx.2 ((hp.history.base_only c hc).1 hx.1)
    rw [if_neg h1]
    simp only []
    obtain ⟨k1, k2, k3, k4, k5, k6⟩ := children_spec w h c hp.nodup hp.cache
    split
    · rename_i n hn
      exfalso
      obtain ⟨a, ha, b, hb, hab, m1, m2⟩ := conflict w _ _ _ k1 (fun x _ => hd x) hn
      exact hp.history.compatible a ((k2 a).1 ha).1 b ((k2 b).1 hb).1 hab _ m1 m2
    · apply ih _ _ (phOk_children hp c)
      · intro x hx
        rw [k4]
        exact hcs x (List.mem_cons_of_mem _ hx)
      · rw [k6]
        rcases hf with hf | hf
        · left
          simp [hf]
        · rcases List.mem_cons.1 hf with hf | hf
          · left
            rw [← hf, (hp.history.base_only _ hp.history.base_mem).2 rfl]
            simp
          · exact Or.inr hf

/-- After any sequence of successful calls, `is_valid` accepts every persistent HUGR. -/
theorem C39_is_valid (cmds : List Cmd) (st : State) (h : run start cmds = some st) :
    ∀ p ∈ st.hugrs, isValid st.world p = .ok () := by
  intro p hp
  have hok := reach_ok h
  have hph := hok.hugrs p hp
  exact isValidLoop_ok _ hok.distinct _ _ _ hph (fun c hc => hc) (Or.inr hph.history.base_mem)

/-- A node of a commit of a history is contained in the persistent HUGR exactly when it is not an
input or output of the replacement and no commit of the history deletes it. If it is deleted, the
reported commit is the only one that deletes it. -/
theorem C39_node_status (cmds : List Cmd) (st : State) (h : run start cmds = some st)
    (p : PHugr) (hp : p ∈ st.hugrs) (c : Nat) (hc : c ∈ p.members) (n : Nat) :
    (containsNode st.world p (st.world.id c) n = true ↔
      n ∉ st.world.io c ∧ ∀ d ∈ p.members, (st.world.id c, n) ∉ st.world.deletes d) ∧
    (nodeStatus st.world p c n = .valid ↔
      n ∉ st.world.io c ∧ ∀ d ∈ p.members, (st.world.id c, n) ∉ st.world.deletes d) ∧
    (∀ d, nodeStatus st.world p c n = .deleted d ↔
      n ∉ st.world.io c ∧ d ∈ p.members ∧ (st.world.id c, n) ∈ st.world.deletes d) := by
  have hok := reach_ok h
  have hw := hok.store.toStoreOk
  have hph := hok.hugrs p hp
  obtain ⟨_, k2, _⟩ := children_spec st.world p c hph.nodup hph.cache
  have hclt := hph.history.exist c hc
  have hup : st.world.upgrade p.space (st.world.id c) = some c := by
    have := upgrade_id hw hclt
    rw [hph.history.same_space c hc, ← hph.space] at this
    exact this
  -- whoever deletes the node is a child
  have hchild : ∀ d ∈ p.members, (st.world.id c, n) ∈ st.world.deletes d →
      d ∈ (p.children st.world c).1 := by
    intro d hd hn
    rw [k2 d]
    refine ⟨hd, ?_⟩
    obtain ⟨q, hq, hqi⟩ := hw.owners d _ hn
    have : q = c := by
      apply hw.ids q c (hw.parents_lt d q hq) hclt _ hqi
      rw [hw.spaces d q hq, hph.history.same_space d hd, hph.history.same_space c hc]
    rw [← this]
    exact hq
  have hfind : ∀ d, findDeletingCommit st.world p c n = some d ↔
      d ∈ p.members ∧ (st.world.id c, n) ∈ st.world.deletes d := by
    intro d
    unfold findDeletingCommit
    constructor
    · intro hf
      have h1 := List.find?_some hf
      have h2 := List.mem_of_find?_eq_some hf
      exact ⟨((k2 d).1 h2).1, by simpa using h1⟩
    · rintro ⟨hd, hn⟩
      cases hf : (p.children st.world c).1.find?
          fun d => decide ((st.world.id c, n) ∈ st.world.deletes d) with
      | none =>
        have := List.find?_eq_none.1 hf d (hchild d hd hn)
        simp [hn] at this
      | some e =>
        have h1 := List.find?_some hf
        have h2 := List.mem_of_find?_eq_some hf
        by_contra hne
        have hed : e ≠ d := fun he => hne (by rw [he])
        exact hph.history.compatible e ((k2 e).1 h2).1 d hd hed _ (by simpa using h1) hn
  have hnone : findDeletingCommit st.world p c n = none ↔
      ∀ d ∈ p.members, (st.world.id c, n) ∉ st.world.deletes d := by
    constructor
    · intro hf d hd hn
      rw [(hfind d).2 ⟨hd, hn⟩] at hf
      cases hf
    · intro hall
      cases hf : findDeletingCommit st.world p c n with
      | none => rfl
      | some d => exact absurd ((hfind d).1 hf).2 (hall d ((hfind d).1 hf).1)
  refine ⟨?_, ?_, ?_⟩
  · unfold containsNode deletedNodes
    rw [hup]
    simp only [Bool.and_eq_true, Bool.not_eq_true', decide_eq_false_iff_not, decide_eq_true_eq]
    constructor
    · rintro ⟨⟨_, h1⟩, h2⟩
      refine ⟨h1, fun d hd hn => h2 ?_⟩
      rw [List.mem_flatMap]
      exact ⟨d, hchild d hd hn, (mem_deletedIn ..).2 hn⟩
    · rintro ⟨h1, h2⟩
      refine ⟨⟨hc, h1⟩, fun hm => ?_⟩
      rw [List.mem_flatMap] at hm
      obtain ⟨d, hd, hn⟩ := hm
      exact h2 d ((k2 d).1 hd).1 ((mem_deletedIn ..).1 hn)
  · unfold nodeStatus
    by_cases hio : n ∈ st.world.io c
    · rw [if_pos hio]
      simp [hio]
    · rw [if_neg hio]
      cases hf : findDeletingCommit st.world p c n with
      | none => simp only [true_iff]; exact ⟨hio, hnone.1 hf⟩
      | some d =>
        simp only [reduceCtorEq, false_iff]
        rintro ⟨_, hall⟩
        exact hall d ((hfind d).1 hf).1 ((hfind d).1 hf).2
  · intro d
    unfold nodeStatus
    by_cases hio : n ∈ st.world.io c
    · rw [if_pos hio]
      simp [hio]
    · rw [if_neg hio]
      cases hf : findDeletingCommit st.world p c n with
      | none =>
        simp only [reduceCtorEq, false_iff]
        rintro ⟨_, hd, hn⟩
        exact hnone.1 hf d hd hn
      | some e =>
        simp only [NodeStatus.deleted.injEq]
        constructor
        · rintro rfl
          exact ⟨hio, (hfind e).1 hf⟩
        · rintro ⟨_, hd⟩
          have := (hfind d).2 hd
          rw [hf] at this
          injection this

end Verif.Persistent
