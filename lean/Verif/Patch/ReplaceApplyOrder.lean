import Verif.Patch.ReplaceApplySteps

/-!
# The order of children when a replacement is applied
-/
namespace Verif.Patch

open Verif.Graph Verif.Ops Verif.Passes Verif.Validate

variable {Meta : Type} {g g' : Hugr Ops.Op Meta}

theorem filter_absent {l : List Nat} {n : Nat} (hn : n ∉ l) : l.filter (· ≠ n) = l :=
  List.filter_eq_self.2 fun x hx => by simpa using (fun e : x = n => hn (e ▸ hx))

/-! ## Placing new nodes -/

/-- The nodes of `ns` are put before those of `ss`, and what is left of them comes last. -/
def placed (ss ns l : List Nat) : List Nat :=
  l.flatMap (fun c => match (ss.zip ns).lookup c with | some n => [n, c] | none => [c]) ++ ns.drop ss.length

theorem placed_nil (ns l : List Nat) : placed [] ns l = l ++ ns := by
  unfold placed
  simp

theorem placed_none (ss l : List Nat) : placed ss [] l = l := by
  unfold placed
  simp

theorem lookup_absent {ss ns : List Nat} {c : Nat} (hc : c ∉ ss) : (ss.zip ns).lookup c = none := by
  rw [List.lookup_eq_none_iff]
  intro p hp
  have := (List.of_mem_zip hp).1
  have hne : c ≠ p.1 := by
    rintro rfl
    exact hc this
  simpa using hne

theorem placed_cons {s n : Nat} {ss ns a b : List Nat} (hs : s ∉ ss) (hn : n ∉ ss) (hd : (a ++ s :: b).Nodup) :
    placed ss ns (a ++ n :: s :: b) = placed (s :: ss) (n :: ns) (a ++ s :: b) := by
  have ha : s ∉ a ∧ s ∉ b := by
    rw [List.nodup_append] at hd
    obtain ⟨_, h2, h3⟩ := hd
    exact ⟨fun h => h3 s h s (by simp) rfl, (List.nodup_cons.1 h2).1⟩
  have same : ∀ l : List Nat, s ∉ l →
      l.flatMap (fun c => match (ss.zip ns).lookup c with | some n => [n, c] | none => [c]) =
      l.flatMap (fun c => match ((s :: ss).zip (n :: ns)).lookup c with | some n => [n, c] | none => [c]) := by
    intro l hl
    apply List.flatMap_congr
    intro c hc
    have hne : (c == s) = false := by
      rw [beq_eq_false_iff_ne]
      rintro rfl
      exact hl hc
    rw [List.zip_cons_cons, List.lookup_cons, hne]
  unfold placed
  rw [List.flatMap_append, List.flatMap_cons, List.flatMap_cons, List.flatMap_append, List.flatMap_cons,
    same a ha.1, same b ha.2, lookup_absent hs, lookup_absent hn]
  have : ((s :: ss).zip (n :: ns)).lookup s = some n := by
    rw [List.zip_cons_cons, List.lookup_cons]; simp
  rw [this]
  simp

theorem placeNew_order {p : Nat} : ∀ (ns ss : List Nat) (g g' : Hugr Ops.Op Meta), IsTree g → ns.Nodup → ss.Nodup →
    (∀ n ∈ ns, g.hier.parent n ≠ some p) → (∀ s ∈ ss, g.hier.parent s = some p) →
    placeNew p g ns ss = some g' → IsTree g' ∧ g'.hier.children p = placed ss ns (g.hier.children p) ∧
      ∀ q, q ≠ p → g'.hier.children q = (g.hier.children q).filter (· ∉ ns)
  | [], ss, g, g', ht, _, _, _, _, e => by
    have : g = g' := by cases ss <;> simpa [placeNew] using e
    subst this
    exact ⟨ht, (placed_none ss _).symm, fun q _ => by simp⟩
  | n :: ns, [], g, g', ht, hn, hs, hnp, hsp, e => by
    rw [placeNew] at e
    cases e1 : g.setParent n p with
    | none => rw [e1] at e; cases e
    | some g1 =>
      rw [e1] at e
      simp only at e
      obtain ⟨t1, m⟩ := (C20_set_parent g ht n p).2 g1 e1
      rw [List.nodup_cons] at hn
      obtain ⟨t, c1, c2⟩ := placeNew_order ns [] g1 g' t1 hn.2 List.nodup_nil (by
        intro x hx
        rw [m.parent, if_neg (show ¬ x = n from fun e => hn.1 (e ▸ hx))]
        exact hnp x (List.mem_cons_of_mem _ hx)) (by simp) e
      refine ⟨t, ?_, ?_⟩
      · rw [c1, m.target, filter_absent (fun h => hnp n List.mem_cons_self ((ht.child_iff _ _).1 h)), placed_nil, placed_nil]
        simp
      · intro q hq
        rw [c2 q hq, m.others q hq, List.filter_filter]
        apply List.filter_congr
        intro x _
        simp [not_or, Bool.and_comm]
  | n :: ns, s :: ss, g, g', ht, hn, hs, hnp, hsp, e => by
    rw [placeNew] at e
    cases e1 : g.moveBeforeSibling n s with
    | none => rw [e1] at e; cases e
    | some g1 =>
      rw [e1] at e
      simp only at e
      obtain ⟨t1, q', a, b, k1, k2, m⟩ := (C20_move_before g ht n s).2 g1 e1
      rw [hsp s List.mem_cons_self] at k1
      cases k1
      rw [filter_absent (fun h => hnp n List.mem_cons_self ((ht.child_iff _ _).1 h))] at k2
      rw [List.nodup_cons] at hn hs
      have nss : ∀ x ∈ s :: ss, x ≠ n := by
        rintro x hx rfl
        exact hnp x List.mem_cons_self (hsp x hx)
      obtain ⟨t, c1, c2⟩ := placeNew_order ns ss g1 g' t1 hn.2 hs.2 (by
        intro x hx
        rw [m.parent, if_neg (show ¬ x = n from fun e => hn.1 (e ▸ hx))]
        exact hnp x (List.mem_cons_of_mem _ hx)) (by
        intro x hx
        rw [m.parent, if_neg (nss x (List.mem_cons_of_mem _ hx))]
        exact hsp x (List.mem_cons_of_mem _ hx)) e
      refine ⟨t, ?_, ?_⟩
      · rw [c1, m.target, k2]
        exact placed_cons hs.1 (fun h => nss n (List.mem_cons_of_mem _ h) rfl) (k2 ▸ ht.child_once p)
      · intro q hq
        rw [c2 q hq, m.others q hq, List.filter_filter]
        apply List.filter_congr
        intro x _
        simp [not_or, Bool.and_comm]

/-! ## Adoption -/

theorem setParents_order {q : Nat} : ∀ (cs : List Nat) (g g' : Hugr Ops.Op Meta), IsTree g → cs.Nodup →
    (∀ c ∈ cs, g.hier.parent c ≠ some q) → each (fun g c => g.setParent c q) g cs = some g' →
    IsTree g' ∧ g'.hier.children q = g.hier.children q ++ cs ∧
      ∀ m, m ≠ q → g'.hier.children m = (g.hier.children m).filter (· ∉ cs)
  | [], g, g', ht, _, _, e => by
    cases e
    exact ⟨ht, by simp, fun m _ => by simp⟩
  | c :: cs, g, g', ht, hn, hc, e => by
    rw [each] at e
    cases e1 : g.setParent c q with
    | none => rw [e1] at e; cases e
    | some g1 =>
      rw [e1] at e
      simp only at e
      obtain ⟨t1, m⟩ := (C20_set_parent g ht c q).2 g1 e1
      rw [List.nodup_cons] at hn
      obtain ⟨t, c1, c2⟩ := setParents_order cs g1 g' t1 hn.2 (by
        intro x hx
        rw [m.parent, if_neg (show ¬ x = c from fun e => hn.1 (e ▸ hx))]
        exact hc x (List.mem_cons_of_mem _ hx)) e
      refine ⟨t, ?_, ?_⟩
      · rw [c1, m.target, filter_absent (fun h => hc c List.mem_cons_self ((ht.child_iff _ _).1 h))]
        simp
      · intro q hq
        rw [c2 q hq, m.others q hq, List.filter_filter]
        apply List.filter_congr
        intro x _
        simp [not_or, Bool.and_comm]

theorem adopt_order {map : List (Nat × Nat)} {d : Nat × Nat} {w : Nat} (ht : IsTree g) (hw : map.lookup d.1 = some w)
    (hne : w ≠ d.2) (e : adopt map g d = some g') : IsTree g' ∧ g'.hier.children w = g.hier.children w ++ g.hier.children d.2 ∧
      ∀ m, m ≠ w → m ≠ d.2 → g'.hier.children m = g.hier.children m := by
  unfold adopt at e
  rw [hw] at e
  simp only at e
  by_cases h0 : g.children d.2 = []
  · rw [if_pos h0] at e; cases e
  rw [if_neg h0] at e
  obtain ⟨t, c1, c2⟩ := setParents_order (g.children d.2) g g' ht (ht.child_once _) (by
    intro c hc hp
    have := (ht.child_iff _ _).1 hc
    rw [this] at hp
    exact hne (Option.some.inj hp).symm) e
  refine ⟨t, c1, fun m m1 m2 => ?_⟩
  rw [c2 m m1]
  refine List.filter_eq_self.2 fun x hx => ?_
  simp only [decide_eq_true_eq]
  intro hc
  have h1 := (ht.child_iff _ _).1 hx
  have h2 := (ht.child_iff _ _).1 hc
  rw [h1] at h2
  exact m2 (Option.some.inj h2)

theorem adopts_order {map : List (Nat × Nat)} {f : Nat → Nat} : ∀ (as : List (Nat × Nat)) (g g' : Hugr Ops.Op Meta),
    IsTree g → (∀ d ∈ as, map.lookup d.1 = some (f d.1)) → (∀ d ∈ as, ∀ d' ∈ as, f d.1 ≠ d'.2) → (as.map Prod.snd).Nodup →
    each (adopt map) g as = some g' → IsTree g' ∧
      (∀ m, (∀ d ∈ as, m ≠ f d.1 ∧ m ≠ d.2) → g'.hier.children m = g.hier.children m) ∧
      ((as.map fun d => f d.1).Nodup → ∀ d ∈ as, g'.hier.children (f d.1) = g.hier.children (f d.1) ++ g.hier.children d.2)
  | [], g, g', ht, _, _, _, e => by
    cases e
    exact ⟨ht, fun _ _ => rfl, by simp⟩
  | d :: as, g, g', ht, hm, hne, hnd, e => by
    rw [each] at e
    cases e1 : adopt map g d with
    | none => rw [e1] at e; cases e
    | some g1 =>
      rw [e1] at e
      simp only at e
      obtain ⟨t1, c1, c2⟩ := adopt_order ht (hm d List.mem_cons_self) (hne d List.mem_cons_self d List.mem_cons_self) e1
      rw [List.map_cons, List.nodup_cons] at hnd
      obtain ⟨t, k1, k2⟩ := adopts_order as g1 g' t1 (fun x hx => hm x (List.mem_cons_of_mem _ hx))
        (fun x hx y hy => hne x (List.mem_cons_of_mem _ hx) y (List.mem_cons_of_mem _ hy)) hnd.2 e
      refine ⟨t, ?_, ?_⟩
      · intro m hmm
        obtain ⟨m1, m2⟩ := hmm d List.mem_cons_self
        rw [k1 m (fun x hx => hmm x (List.mem_cons_of_mem _ hx)), c2 m m1 m2]
      · intro hf x hx
        rw [List.map_cons, List.nodup_cons] at hf
        rcases List.mem_cons.1 hx with rfl | hx'
        · rw [k1 (f x.1), c1]
          intro y hy
          refine ⟨fun e => hf.1 (List.mem_map.2 ⟨y, hy, e.symm⟩), hne x List.mem_cons_self y (List.mem_cons_of_mem _ hy)⟩
        · rw [k2 hf.2 x hx', c2 (f x.1), c2 x.2]
          · exact fun e => hne d List.mem_cons_self x hx e.symm
          · exact fun e => hnd.1 (List.mem_map.2 ⟨x, hx', e⟩)
          · exact fun e => hf.1 (List.mem_map.2 ⟨x, hx', e⟩)
          · exact hne x hx d List.mem_cons_self

/-! ## Removal -/

theorem removeOne_order {n q : Nat} (hok : g.hier.Ok) (hq : q ≠ n) (e : g.removeNode opsInfo.toOpInfo n = some g') :
    g'.hier.Ok ∧ g'.hier.children q = (g.hier.children q).filter (· ≠ n) := by
  unfold Hugr.removeNode at e
  by_cases hv : g.validNonEntrypoint n = true
  · have hv' := hv
    unfold Hugr.validNonEntrypoint at hv'
    simp only [Bool.and_eq_true, decide_eq_true_eq, ne_eq, bne_iff_ne] at hv'
    obtain ⟨g1, e1, w⟩ := removeOne_ok hok hv'.1 hv'.2
    rw [if_pos hv] at e
    unfold Hugr.removeNode at e1
    rw [if_pos hv] at e1
    rw [e] at e1
    cases e1
    refine ⟨w.ok, ?_⟩
    have : g'.hier = g.hier.remove n := by cases e; rfl
    rw [this, remove_children hok, if_neg hq, (hok.child_once q).erase_eq_filter]
    apply List.filter_congr
    intro x _
    by_cases hx : x = n <;> simp [hx]
  · rw [if_neg hv] at e; cases e

theorem removeAll_order {q : Nat} : ∀ (D : List Nat) (g g' : Hugr Ops.Op Meta), g.hier.Ok → q ∉ D →
    each (fun g n => g.removeNode opsInfo.toOpInfo n) g D = some g' →
    g'.hier.children q = (g.hier.children q).filter (· ∉ D)
  | [], g, g', _, _, e => by cases e; simp
  | n :: D, g, g', hok, hq, e => by
    rw [each] at e
    cases e1 : g.removeNode opsInfo.toOpInfo n with
    | none => rw [e1] at e; cases e
    | some g1 =>
      rw [e1] at e
      simp only at e
      rw [List.mem_cons, not_or] at hq
      obtain ⟨o1, c1⟩ := removeOne_order hok hq.1 e1
      rw [removeAll_order D g1 g' o1 hq.2 e, c1, List.filter_filter]
      apply List.filter_congr
      intro x _
      simp [not_or, Bool.and_comm]


/-! ## All steps -/

theorem filter_flatMap_eq {P : Nat → Bool} {F : Nat → List Nat} {G : Nat → Option Nat} : ∀ (K : List Nat),
    (∀ c ∈ K, (F c).filter P = (G c).toList) → (K.flatMap F).filter P = K.filterMap G
  | [], _ => rfl
  | c :: K, hc => by
    rw [List.flatMap_cons, List.filter_append, hc c List.mem_cons_self,
      filter_flatMap_eq K (fun x hx => hc x (List.mem_cons_of_mem _ hx)), List.filterMap_cons]
    cases G c <;> rfl

theorem lookup_zip_map (f : Nat → Nat) (c : Nat) : ∀ (ss ts : List Nat),
    (ss.zip (ts.map f)).lookup c = ((ss.zip ts).lookup c).map f
  | [], _ => by simp
  | _ :: _, [] => by simp
  | s :: ss, t :: ts => by
    rw [List.map_cons, List.zip_cons_cons, List.zip_cons_cons, List.lookup_cons, List.lookup_cons]
    cases c == s
    · exact lookup_zip_map f c ss ts
    · rfl

theorem lookup_mem {c n : Nat} : ∀ {l : List (Nat × Nat)}, l.lookup c = some n → (c, n) ∈ l
  | [], e => by simp at e
  | (a, b) :: l, e => by
    rw [List.lookup_cons] at e
    by_cases hc : c == a
    · rw [hc] at e
      simp only [Option.some.injEq] at e
      have : c = a := by simpa using hc
      rw [this, e]
      exact List.mem_cons_self
    · rw [Bool.not_eq_true] at hc
      rw [hc] at e
      exact List.mem_cons_of_mem _ (lookup_mem e)

variable {h h1 : Hugr Ops.Op Meta} {r : Replacement Meta} {p : Nat} {f : Nat → Nat} {R : List Nat}

theorem Brings.order (a : Brings h r p f R h1)
    (hc : ∀ m, h.live m = true → h1.hier.children m = h.hier.children m ++ if m = p then [f r.replacement.entrypoint] else [])
    {L : List Link} {h5 h6 h7 g : Hugr Ops.Op Meta} {map : List (Nat × Nat)} {D : List Nat}
    (hmap : ∀ x, Above r.replacement.hier.parent x r.replacement.entrypoint → map.lookup x = some (f x))
    (e5 : placeNew p (withLinks h1 L) ((withLinks h1 L).children (f r.replacement.entrypoint)) r.removal = some h5)
    (e6 : h5.removeNode opsInfo.toOpInfo (f r.replacement.entrypoint) = some h6) (t6 : IsTree h6)
    (e7 : each (adopt map) h6 r.adoptions = some h7)
    (e8 : each (fun g n => g.removeNode opsInfo.toOpInfo n) h7 D = some g) (hD : ∀ x, x ∈ D ↔ Removes h r x) :
    g.children p = (h.children p).filterMap (r.instead f) ++
      ((r.replacement.children r.replacement.entrypoint).drop r.removal.length).map f ∧
    (∀ n, h.live n = true → ¬ Removes h r n → n ≠ p → g.children n = h.children n) ∧
    ((r.adoptions.map Prod.fst).Nodup → ∀ d ∈ r.adoptions, g.children (f d.1) = h.children d.2) ∧
    ∀ x, Brought r x → (∀ d ∈ r.adoptions, x ≠ d.1) → g.children (f x) = (r.replacement.children x).map f := by
  have top : Above r.replacement.hier.parent r.replacement.entrypoint r.replacement.entrypoint := .refl _
  have t4 : IsTree (withLinks h1 L) := withLinks_tree a.t1
  have below : ∀ {c q}, Above r.replacement.hier.parent q r.replacement.entrypoint → r.replacement.hier.parent c = some q →
      Brought r c := by
    intro c q h1 h2
    refine ⟨.step h2 h1, ?_⟩
    rintro rfl
    exact a.rt.acyclic _ _ h2 h1
  have hns : (withLinks h1 L).children (f r.replacement.entrypoint) =
      (r.replacement.children r.replacement.entrypoint).map f := a.children _ top
  rw [hns] at e5
  have nsOf : ∀ {n}, n ∈ (r.replacement.children r.replacement.entrypoint).map f →
      ∃ c, r.replacement.hier.parent c = some r.replacement.entrypoint ∧ f c = n := by
    intro n hn
    obtain ⟨c, hc', rfl⟩ := List.mem_map.1 hn
    exact ⟨c, (a.rt.child_iff _ _).1 hc', rfl⟩
  have removedLive : ∀ {n}, n ∈ D → h.live n = true := fun hn => a.live_removed ((hD _).1 hn)
  have copyD : ∀ {x}, Above r.replacement.hier.parent x r.replacement.entrypoint → f x ∉ D :=
    fun hx hd => a.ne (removedLive hd) hx rfl
  have neTop : ∀ {x}, Brought r x → f x ≠ f r.replacement.entrypoint := fun hx e => hx.2 (a.inj _ _ hx.1 top e)
  obtain ⟨t5, c5, c5'⟩ := placeNew_order _ _ _ _ t4 (by
      refine List.Nodup.map_on (fun x hx y hy e => ?_) (a.rt.child_once _)
      exact a.inj x y (below top ((a.rt.child_iff _ _).1 hx)).1 (below top ((a.rt.child_iff _ _).1 hy)).1 e) a.wp.once (by
      intro n hn e
      rw [← hns] at hn
      have := (t4.child_iff _ _).1 hn
      rw [this] at e
      exact a.ne a.p_live top (Option.some.inj e).symm) (by
      intro s hs
      rw [show (withLinks h1 L).hier.parent s = h1.hier.parent s from rfl,
        (a.host s (a.ht.parent_live _ _ (a.sib s hs)).1).2.2.2.2]
      exact a.sib s hs) e5
  have c6 : ∀ q, q ≠ f r.replacement.entrypoint →
      h6.hier.children q = (h5.hier.children q).filter (· ≠ f r.replacement.entrypoint) :=
    fun q hq => (removeOne_order t5.ok hq e6).2
  have adl : ∀ b ∈ r.adoptions, b.2 ∈ r.adopted := fun b hb => List.mem_map.2 ⟨b, hb, rfl⟩
  have adR : ∀ d ∈ r.adoptions, Removes h r d.2 := fun d hd =>
    ⟨(a.wp.adoptees d.2 (adl d hd)).1, fun v hv hne => (a.wp.adoptees d.2 (adl d hd)).2 v hv (Ne.symm hne)⟩
  obtain ⟨t7, k1, k2⟩ := adopts_order r.adoptions h6 h7 t6 (fun d hd => hmap _ (a.inside.2.2 d hd).1)
    (fun d hd d' hd' e => a.ne (a.live_removed (adR d' hd')) (a.inside.2.2 d hd).1 e.symm) a.wp.adoptedOnce e7
  have c8 : ∀ q, q ∉ D → g.hier.children q = (h7.hier.children q).filter (· ∉ D) :=
    fun q hq => removeAll_order D h7 g t7.ok hq e8
  -- nodes of the host other than `p` have their children until nodes are removed
  have host6 : ∀ n, h.live n = true → n ≠ p → h6.hier.children n = h.hier.children n := by
    intro n hn hp
    rw [c6 n (a.ne hn top), c5' n hp, show (withLinks h1 L).hier.children n = h1.hier.children n from rfl, hc n hn,
      if_neg hp, List.append_nil, List.filter_filter]
    refine List.filter_eq_self.2 fun x hx => ?_
    have xl := (a.ht.parent_live _ _ ((a.ht.child_iff _ _).1 hx)).1
    have h2 : x ∉ (r.replacement.children r.replacement.entrypoint).map f := by
      intro hm
      obtain ⟨c, hc', e⟩ := nsOf hm
      exact a.ne xl (below top hc').1 e.symm
    simp only [Bool.and_eq_true, decide_eq_true_eq]
    exact ⟨a.ne xl top, h2⟩
  refine ⟨?_, ?_, ?_, ?_⟩
  · have pD : p ∉ D := fun hp => a.p_stays ((hD p).1 hp)
    change g.hier.children p = _
    rw [c8 p pD, k1 p (fun d hd => ⟨a.ne a.p_live (a.inside.2.2 d hd).1, fun e => a.p_stays (e ▸ adR d hd)⟩),
      c6 p (a.ne a.p_live top), c5, show (withLinks h1 L).hier.children p = h1.hier.children p from rfl, hc p a.p_live,
      if_pos rfl, List.filter_filter]
    unfold placed
    rw [List.flatMap_append, List.filter_append, List.filter_append]
    have htop : ([f r.replacement.entrypoint].flatMap fun c =>
        match (r.removal.zip ((r.replacement.children r.replacement.entrypoint).map f)).lookup c with
        | some n => [n, c] | none => [c]) = [f r.replacement.entrypoint] := by
      rw [List.flatMap_cons, List.flatMap_nil, lookup_absent]
      · rfl
      · intro hm
        exact a.ne (a.ht.parent_live _ _ (a.sib _ hm)).1 top rfl
    rw [htop]
    have keep : ∀ n ∈ (r.replacement.children r.replacement.entrypoint).map f,
        (decide (n ∉ D) && decide (n ≠ f r.replacement.entrypoint)) = true := by
      intro n hn
      obtain ⟨c, hc', rfl⟩ := nsOf hn
      have hb := below top hc'
      simp only [Bool.and_eq_true, decide_eq_true_eq]
      exact ⟨copyD hb.1, neTop hb⟩
    have last : (((r.replacement.children r.replacement.entrypoint).map f).drop r.removal.length).filter
        (fun n => decide (n ∉ D) && decide (n ≠ f r.replacement.entrypoint)) =
        ((r.replacement.children r.replacement.entrypoint).drop r.removal.length).map f := by
      rw [List.map_drop]
      exact List.filter_eq_self.2 fun n hn => keep n (List.mem_of_mem_drop hn)
    rw [last]
    have gone : [f r.replacement.entrypoint].filter
        (fun n => decide (n ∉ D) && decide (n ≠ f r.replacement.entrypoint)) = [] := by
      simp
    rw [gone, List.append_nil]
    congr 1
    apply filter_flatMap_eq
    intro c hcm
    have cp := (a.ht.child_iff _ _).1 hcm
    have cl := (a.ht.parent_live _ _ cp).1
    have cne := a.ne cl top
    have cD : c ∈ D ↔ c ∈ r.removal := by
      rw [hD]
      constructor
      · rintro ⟨⟨s, hs, hcs⟩, _⟩
        have := same_child a.ht (.refl c) hcs cp (a.sib s hs)
        rw [this]
        exact hs
      · exact fun hs => a.removal hs
    unfold Replacement.instead
    by_cases hr : c ∈ r.removal
    · rw [if_pos hr, ← lookup_zip_map]
      cases hlk : (r.removal.zip ((r.replacement.children r.replacement.entrypoint).map f)).lookup c with
      | none =>
        simp [cD.2 hr]
      | some n =>
        have hn := keep n (List.of_mem_zip (lookup_mem hlk)).2
        simp only [List.filter_cons, hn, if_true, List.filter_nil, Option.toList_some]
        simp [cD.2 hr]
    · rw [if_neg hr, lookup_absent hr]
      have : c ∉ D := fun hd => hr (cD.1 hd)
      simp [this, cne]
  · intro n hn hr hp
    change g.hier.children n = h.hier.children n
    rw [c8 n (fun hd => hr ((hD n).1 hd)),
      k1 n (fun d hd => ⟨a.ne hn (a.inside.2.2 d hd).1, fun e => hr (e ▸ adR d hd)⟩), host6 n hn hp]
    refine List.filter_eq_self.2 fun c hcm => ?_
    have cp := (a.ht.child_iff _ _).1 hcm
    simp only [decide_eq_true_eq, hD]
    rintro ⟨⟨s, hs, hcs⟩, hno⟩
    have hns : Above h.hier.parent n s := by
      cases hcs with
      | refl =>
        have := a.sib _ hs
        rw [cp] at this
        exact absurd (Option.some.inj this) hp
      | step hp' hq =>
        rw [cp] at hp'
        cases hp'
        exact hq
    refine hr ⟨⟨s, hs, hns⟩, fun v hv hne hnv => ?_⟩
    refine hno v hv ?_ (.step cp hnv)
    rintro rfl
    exact a.ht.acyclic _ _ cp hnv
  · intro hnd d hd
    have hin := a.inside.2.2 d hd
    have dl := a.live_removed (adR d hd)
    have dp : d.2 ≠ p := fun e => a.p_stays (e ▸ adR d hd)
    have hfn : (r.adoptions.map fun d => f d.1).Nodup := by
      have : (r.adoptions.map fun d => f d.1) = (r.adoptions.map Prod.fst).map f := by rw [List.map_map]; rfl
      rw [this]
      refine List.Nodup.map_on (fun x hx y hy e => ?_) hnd
      obtain ⟨dx, hdx, rfl⟩ := List.mem_map.1 hx
      obtain ⟨dy, hdy, rfl⟩ := List.mem_map.1 hy
      exact a.inj _ _ (a.inside.2.2 dx hdx).1 (a.inside.2.2 dy hdy).1 e
    have h0 : h6.hier.children (f d.1) = [] := by
      rw [c6 _ (neTop hin), c5' _ (a.ne a.p_live hin.1).symm,
        show (withLinks h1 L).hier.children (f d.1) = h1.hier.children (f d.1) from rfl, a.children _ hin.1,
        show r.replacement.hier.children d.1 = [] from (a.wp.adopters d hd).2.2]
      rfl
    change g.hier.children (f d.1) = h.hier.children d.2
    rw [c8 _ (copyD hin.1), k2 hfn d hd, h0, List.nil_append, host6 _ dl dp]
    refine List.filter_eq_self.2 fun c hcm => ?_
    have cp := (a.ht.child_iff _ _).1 hcm
    simp only [decide_eq_true_eq, hD]
    intro hr
    refine hr.2 d.2 (adl d hd) ?_ (.step cp (.refl _))
    rintro rfl
    exact a.ht.acyclic _ _ cp (.refl _)
  · intro x hx hxa
    change g.hier.children (f x) = _
    rw [c8 _ (copyD hx.1), k1 (f x) (fun d hd => ⟨fun e => hxa d hd (a.inj _ _ hx.1 (a.inside.2.2 d hd).1 e),
        fun e => a.ne (a.live_removed (adR d hd)) hx.1 e.symm⟩), c6 _ (neTop hx), c5' _ (a.ne a.p_live hx.1).symm,
      show (withLinks h1 L).hier.children (f x) = h1.hier.children (f x) from rfl, a.children _ hx.1, List.filter_filter,
      List.filter_filter]
    refine List.filter_eq_self.2 fun n hn => ?_
    obtain ⟨c, hc', rfl⟩ := List.mem_map.1 hn
    have cp := (a.rt.child_iff _ _).1 hc'
    have hb := below hx.1 cp
    have h2 : f c ∉ (r.replacement.children r.replacement.entrypoint).map f := by
      intro hm
      obtain ⟨c', hp', e⟩ := nsOf hm
      have := a.inj _ _ (below top hp').1 hb.1 e
      rw [this, cp] at hp'
      exact hx.2 (Option.some.inj hp')
    simp only [Bool.and_eq_true, decide_eq_true_eq]
    exact ⟨⟨copyD hb.1, neTop hb⟩, h2⟩

end Verif.Patch
