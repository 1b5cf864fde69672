import Verif.Patch.SimpleReplaceLemmas

/-!
# Inserting the replacement
-/
namespace Verif.Patch

open Verif.Graph Verif.Ops Verif.Passes Verif.Validate Verif.Dataflow

variable {Meta : Type} {C : Validate.Context} {h r : Hugr Ops.Op Meta}

/-- The nodes of the replacement that are kept. -/
def freshNodes (r : Hugr Ops.Op Meta) (i o : Nat) : List Nat :=
  (r.descendants r.entrypoint).filter fun x => x ≠ r.entrypoint && x ≠ i && x ≠ o

theorem mem_fresh (ht : IsTree r) {i o x : Nat} : x ∈ freshNodes r i o ↔ Fresh r i o x := by
  have hd := descendants_enumerates ht ht.entry_live
  unfold freshNodes Fresh
  rw [List.mem_filter, hd.mem, inside_iff ht]
  simp only [ne_eq, decide_not, Bool.and_eq_true, Bool.not_eq_eq_eq_not, Bool.not_true,
    decide_eq_false_iff_not]
  tauto

/-- `g` is `h` with the kept nodes of `r` in the region `p` too. -/
structure Unpacked (h r : Hugr Ops.Op Meta) (p i o : Nat) (f : Nat → Nat) (g : Hugr Ops.Op Meta) : Prop where
  tree : IsTree g
  fresh : ∀ x, Fresh r i o x → h.live (f x) = false
  injective : ∀ x y, Fresh r i o x → Fresh r i o y → f x = f y → x = y
  live : ∀ n, g.live n = true ↔ h.live n = true ∨ ∃ x, Fresh r i o x ∧ n = f x
  moduleRoot : g.moduleRoot = h.moduleRoot
  entrypoint : g.entrypoint = h.entrypoint
  host : ∀ n, h.live n = true → g.ops n = h.ops n ∧ g.ins n = h.ins n ∧
    g.outs n = h.outs n ∧ g.metadata n = h.metadata n ∧ g.hier.parent n = h.hier.parent n
  node : ∀ x, Fresh r i o x → g.ops (f x) = r.ops x ∧ g.ins (f x) = r.ins x ∧
    g.outs (f x) = r.outs x ∧ g.metadata (f x) = r.metadata x ∧
    g.hier.parent (f x) =
      if r.hier.parent x = some r.entrypoint then some p else (r.hier.parent x).map f
  region : g.children p = h.children p ++ ((r.children r.entrypoint).drop 2).map f
  host_children : ∀ n, h.live n = true → n ≠ p → g.children n = h.children n
  node_children : ∀ x, Fresh r i o x → g.children (f x) = (r.children x).map f
  links : g.links.Perm (h.links ++
    (r.links.filter fun l => l.src ∈ freshNodes r i o && l.dst ∈ freshNodes r i o).map (Link.rename f))

theorem region_filter {L R : List Nat} {a b c : Nat} (hL : ∀ x ∈ L, x ≠ a ∧ x ≠ b ∧ x ≠ c) (hR : c ∉ R)
    (hca : c ≠ a) (hcb : c ≠ b) :
    ((((L ++ [c]).filter (· ≠ a)).filter (· ≠ b)) ++ R).filter (· ≠ c) = L ++ R := by
  have h1 : (L ++ [c]).filter (· ≠ a) = L ++ [c] := by
    refine List.filter_eq_self.2 ?_
    intro x hx
    rcases List.mem_append.1 hx with hx | hx
    · simpa using (hL x hx).1
    · simp only [List.mem_singleton] at hx; subst hx; simpa using hca
  have h2 : (L ++ [c]).filter (· ≠ b) = L ++ [c] := by
    refine List.filter_eq_self.2 ?_
    intro x hx
    rcases List.mem_append.1 hx with hx | hx
    · simpa using (hL x hx).2.1
    · simp only [List.mem_singleton] at hx; subst hx; simpa using hcb
  have h3 : L.filter (· ≠ c) = L := List.filter_eq_self.2 fun x hx => by simpa using (hL x hx).2.2
  have h4 : R.filter (· ≠ c) = R := List.filter_eq_self.2 fun x hx => by
    have : x ≠ c := by rintro rfl; exact hR hx
    simpa using this
  rw [h1, h2, List.filter_append, List.filter_append, h3, h4]
  simp

theorem unpack_eq (ht : IsTree h) (hl : LinksOk h) (htr : IsTree r) (hlr : LinksOk r) {p i o : Nat}
    (hp : h.live p = true) {rest : List Nat} (hch : r.children r.entrypoint = i :: o :: rest)
    (hci : r.children i = []) (hco : r.children o = []) {news : List Nat}
    (hlen : news.length = (r.descendants r.entrypoint).length) (hall : Allocated h news) :
    ∃ g map f, unpackReplacement h r p i o news = some (g, map) ∧
      (∀ x, Fresh r i o x → map.lookup x = some (f x)) ∧
      (∀ x, x = i ∨ x = o ∨ x = r.entrypoint → map.lookup x = none) ∧ Unpacked h r p i o f g := by
  obtain ⟨h1, map, f, hins, hmap, I, ht1, hl1, hk⟩ := C23_insert_hugr opsInfo.toOpInfo h r ht hl htr hlr
    p r.entrypoint news hp htr.entry_live hlen hall
  have hd := descendants_enumerates htr htr.entry_live
  have hchild : ∀ x ∈ r.children r.entrypoint, r.hier.parent x = some r.entrypoint :=
    fun x hx => (htr.child_iff _ _).1 hx
  have hpi := hchild i (by rw [hch]; simp)
  have hpo := hchild o (by rw [hch]; simp)
  have hnd : (i :: o :: rest).Nodup := by rw [← hch]; exact htr.child_once _
  have hio : i ≠ o := by
    rintro rfl
    exact (List.nodup_cons.1 hnd).1 (by simp)
  have hei : r.entrypoint ≠ i := by
    intro e; exact htr.acyclic _ _ hpi (e ▸ .refl _)
  have heo : r.entrypoint ≠ o := by
    intro e; exact htr.acyclic _ _ hpo (e ▸ .refl _)
  have hai : Above r.hier.parent i r.entrypoint := .of_parent hpi
  have hao : Above r.hier.parent o r.entrypoint := .of_parent hpo
  have hDi := (hd.mem i).2 hai
  have hDo := (hd.mem o).2 hao
  have hDe := (hd.mem r.entrypoint).2 (.refl _)
  have hrest : ∀ x ∈ rest, x ∈ r.descendants r.entrypoint ∧ x ≠ i ∧ x ≠ o ∧ x ≠ r.entrypoint ∧
      r.hier.parent x = some r.entrypoint := by
    intro x hx
    have hpx := hchild x (by rw [hch]; simp [hx])
    refine ⟨(hd.mem x).2 (.of_parent hpx), ?_, ?_, ?_, hpx⟩
    · rintro rfl; exact (List.nodup_cons.1 hnd).1 (by simp [hx])
    · rintro rfl; exact (List.nodup_cons.1 (List.nodup_cons.1 hnd).2).1 hx
    · rintro rfl; exact htr.acyclic _ _ hpx (.refl _)
  have hinj : ∀ x ∈ r.descendants r.entrypoint, ∀ y ∈ r.descendants r.entrypoint, f x = f y → x = y :=
    I.injective
  have hhost : ∀ n, h.live n = true → ∀ x ∈ r.descendants r.entrypoint, n ≠ f x := by
    intro n hn x hx e
    rw [e, I.fresh x hx] at hn; cases hn
  have hfe : h1.hier.children (f r.entrypoint) = f i :: f o :: rest.map f := by
    rw [(hk _ (.refl _)).2]
    change (r.children r.entrypoint).map f = _
    rw [hch]; rfl
  have hfio : f i ≠ f o := fun e => hio (hinj i hDi o hDo e)
  have hfei : f r.entrypoint ≠ f i := fun e => hei (hinj _ hDe i hDi e)
  have hfeo : f r.entrypoint ≠ f o := fun e => heo (hinj _ hDe o hDo e)
  have hlive1 : ∀ x ∈ r.descendants r.entrypoint, h1.live (f x) = true := fun x hx =>
    (I.live _).2 (.inr ⟨x, hx, rfl⟩)
  have hentry : ∀ x ∈ r.descendants r.entrypoint, f x ≠ h.entrypoint := fun x hx e =>
    hhost _ ht.entry_live x hx e.symm
  have hroot : ∀ x ∈ r.descendants r.entrypoint, f x ≠ h.moduleRoot := fun x hx e =>
    hhost _ ht.root_live x hx e.symm
  -- the input
  obtain ⟨h2, e2, r2⟩ := removeLeaf ht1 (hlive1 i hDi) (by rw [I.root_entry.2]; exact hentry i hDi)
    (by rw [I.root_entry.1]; exact hroot i hDi) (by
      refine ((hk i hai).2).trans ?_
      have : r.hier.children i = [] := hci
      rw [this]; rfl)
  -- the output
  obtain ⟨h3, e3, r3⟩ := removeLeaf r2.tree ((r2.live _).2 ⟨hlive1 o hDo, hfio.symm⟩)
    (by rw [r2.entrypoint, I.root_entry.2]; exact hentry o hDo)
    (by rw [r2.moduleRoot, I.root_entry.1]; exact hroot o hDo) (by
      refine (r2.children (f o)).trans ?_
      rw [(hk o hao).2]
      have : r.hier.children o = [] := hco
      rw [this]; rfl)
  have hc3 : h3.hier.children (f r.entrypoint) = rest.map f := by
    rw [r3.children, r2.children, hfe, List.filter_filter]
    have hkeep : ∀ y ∈ rest.map f, y ≠ f i ∧ y ≠ f o := by
      intro y hy
      obtain ⟨x, hx, rfl⟩ := List.mem_map.1 hy
      obtain ⟨a1, a2, a3, _⟩ := hrest x hx
      exact ⟨fun e => a2 (hinj x a1 i hDi e), fun e => a3 (hinj x a1 o hDo e)⟩
    rw [List.filter_cons_of_neg (by simp), List.filter_cons_of_neg (by simp)]
    rw [List.filter_eq_self]
    intro y hy
    simp [hkeep y hy]
  have hpf : p ≠ f r.entrypoint := hhost p hp _ hDe
  have hparent3 : ∀ x ∈ r.descendants r.entrypoint, x ≠ i → x ≠ o →
      h3.hier.parent (f x) = h1.hier.parent (f x) := by
    intro x hx h1 h2
    rw [r3.parent _ fun e => h2 (hinj x hx o hDo e), r2.parent _ fun e => h1 (hinj x hx i hDi e)]
  have hpe3 : h3.hier.parent (f r.entrypoint) = some p := by
    rw [hparent3 _ hDe hei heo]
    exact I.root_parent (r.entrypoint, p) (by simp)
  have hnodup : (rest.map f).Nodup := by
    rw [List.nodup_map_iff_inj_on (List.nodup_cons.1 (List.nodup_cons.1 hnd).2).2]
    intro x hx y hy e
    exact hinj x (hrest x hx).1 y (hrest y hy).1 e
  have hpn : ∀ x ∈ r.descendants r.entrypoint, x ≠ r.entrypoint →
      h1.hier.parent (f x) = (r.hier.parent x).map f := by
    intro x hx hne
    exact I.node_parent x hx (by simpa using hne)
  -- the children move
  obtain ⟨h4, e4, ht4, m1, m2, m3, m4⟩ := moveEach hpf (rest.map f) h3 r3.tree hpe3 hnodup (by
    intro c hc
    obtain ⟨x, hx, rfl⟩ := List.mem_map.1 hc
    obtain ⟨a1, a2, a3, a4, a5⟩ := hrest x hx
    rw [hparent3 x a1 a2 a3, hpn x a1 a4, a5]; rfl)
  have hfe_rest : f r.entrypoint ∉ rest.map f := by
    intro hm
    obtain ⟨x, hx, e⟩ := List.mem_map.1 hm
    obtain ⟨a1, a2, a3, a4, a5⟩ := hrest x hx
    exact a4 (hinj x a1 _ hDe e)
  -- the entrypoint
  have h4live : h4.live = h3.live := by rw [m4]
  obtain ⟨h5, e5, r5⟩ := removeLeaf ht4 (n := f r.entrypoint) (by
      rw [h4live, r3.live, r2.live]
      exact ⟨⟨hlive1 _ hDe, hfei⟩, hfeo⟩)
    (by rw [m4]; change _ ≠ h3.entrypoint; rw [r3.entrypoint, r2.entrypoint, I.root_entry.2]; exact hentry _ hDe)
    (by rw [m4]; change _ ≠ h3.moduleRoot; rw [r3.moduleRoot, r2.moduleRoot, I.root_entry.1]; exact hroot _ hDe) (by
      refine (m3 _ hpf.symm).trans ?_
      rw [hc3, List.filter_eq_nil_iff]
      intro x hx
      simp only [hx, not_true_eq_false, decide_false, Bool.false_eq_true, not_false_eq_true])
  have hfr : ∀ x, Fresh r i o x → x ∈ r.descendants r.entrypoint ∧ x ≠ r.entrypoint ∧ x ≠ i ∧ x ≠ o := by
    intro x hx
    obtain ⟨a, b⟩ := (inside_iff htr).1 hx.1
    exact ⟨(hd.mem x).2 a, b, hx.2.1, hx.2.2⟩
  have hne : ∀ x, Fresh r i o x → f x ≠ f i ∧ f x ≠ f o ∧ f x ≠ f r.entrypoint := by
    intro x hx
    obtain ⟨a1, a2, a3, a4⟩ := hfr x hx
    exact ⟨fun e => a3 (hinj x a1 i hDi e), fun e => a4 (hinj x a1 o hDo e), fun e => a2 (hinj x a1 _ hDe e)⟩
  have hhne : ∀ n, h.live n = true → n ≠ f i ∧ n ≠ f o ∧ n ≠ f r.entrypoint := fun n hn =>
    ⟨hhost n hn i hDi, hhost n hn o hDo, hhost n hn _ hDe⟩
  have hops : ∀ n, n ≠ f i → n ≠ f o → n ≠ f r.entrypoint → h5.ops n = h1.ops n ∧ h5.ins n = h1.ins n ∧
      h5.outs n = h1.outs n ∧ h5.metadata n = h1.metadata n := by
    intro n n1 n2 n3
    refine ⟨?_, ?_, ?_, ?_⟩
    · rw [r5.ops n n3, m4]; change h3.ops n = _; rw [r3.ops n n2, r2.ops n n1]
    · rw [r5.ins, m4]; change h3.ins n = _; rw [r3.ins, r2.ins]
    · rw [r5.outs, m4]; change h3.outs n = _; rw [r3.outs, r2.outs]
    · rw [r5.metadata, m4]; change h3.metadata n = _; rw [r3.metadata, r2.metadata]
  have hkids : ∀ n, n ≠ p → h5.hier.children n = ((h1.hier.children n).filter
      fun c => c ≠ f i && c ≠ f o && c ≠ f r.entrypoint).filter (· ∉ rest.map f) := by
    intro n hnp
    rw [r5.children, m3 n hnp, r3.children, r2.children, List.filter_filter, List.filter_filter,
      List.filter_filter, List.filter_filter]
    apply List.filter_congr
    intro x _
    rw [Bool.eq_iff_iff]
    simp only [ne_eq, decide_not, Bool.and_eq_true, Bool.not_eq_eq_eq_not, Bool.not_true,
      decide_eq_false_iff_not]
    tauto
  refine ⟨h5, map.filter fun e => e.1 ≠ i && e.1 ≠ o && e.1 ≠ r.entrypoint, f, ?_, ?_, ?_, ?_⟩
  · unfold unpackReplacement
    rw [hins]
    simp only [hmap i hai, hmap o hao, hmap _ (.refl _), e2, e3]
    have : h3.children (f r.entrypoint) = rest.map f := hc3
    rw [this, e4]
    simp only [e5]
  · intro x hx
    obtain ⟨a1, a2, a3, a4⟩ := hfr x hx
    have := hmap x ((hd.mem x).1 a1)
    rw [List.lookup_eq_some_iff] at this ⊢
    obtain ⟨l1, l2, hmm, hno⟩ := this
    subst hmm
    refine ⟨l1.filter fun e => e.1 ≠ i && e.1 ≠ o && e.1 ≠ r.entrypoint,
      l2.filter fun e => e.1 ≠ i && e.1 ≠ o && e.1 ≠ r.entrypoint, ?_, ?_⟩
    · rw [List.filter_append, List.filter_cons_of_pos (by simp [a2, a3, a4])]
    · intro q hq
      exact hno q (List.mem_filter.1 hq).1
  · intro x hx
    rw [List.lookup_eq_none_iff]
    intro q hq
    have := (List.mem_filter.1 hq).2
    simp only [ne_eq, decide_not, Bool.and_eq_true, Bool.not_eq_eq_eq_not, Bool.not_true,
      decide_eq_false_iff_not] at this
    have hne : x ≠ q.1 := by rintro rfl; tauto
    simp [hne]
  · refine ⟨r5.tree, fun x hx => I.fresh x (hfr x hx).1, fun x y hx hy => hinj x (hfr x hx).1 y (hfr y hy).1,
      ?_, ?_, ?_, ?_, ?_, ?_, ?_, ?_, ?_⟩
    · intro n
      rw [r5.live, h4live, r3.live, r2.live, I.live]
      constructor
      · rintro ⟨⟨⟨hn | ⟨x, hx, rfl⟩, n1⟩, n2⟩, n3⟩
        · exact .inl hn
        · refine .inr ⟨x, ⟨(inside_iff htr).2 ⟨(hd.mem x).1 hx, ?_⟩, ?_, ?_⟩, rfl⟩
          · rintro rfl; exact n3 rfl
          · rintro rfl; exact n1 rfl
          · rintro rfl; exact n2 rfl
      · rintro (hn | ⟨x, hx, rfl⟩)
        · exact ⟨⟨⟨.inl hn, (hhne n hn).1⟩, (hhne n hn).2.1⟩, (hhne n hn).2.2⟩
        · exact ⟨⟨⟨.inr ⟨x, (hfr x hx).1, rfl⟩, (hne x hx).1⟩, (hne x hx).2.1⟩, (hne x hx).2.2⟩
    · rw [r5.moduleRoot, m4]; change h3.moduleRoot = _; rw [r3.moduleRoot, r2.moduleRoot, I.root_entry.1]
    · rw [r5.entrypoint, m4]; change h3.entrypoint = _; rw [r3.entrypoint, r2.entrypoint, I.root_entry.2]
    · intro n hn
      obtain ⟨n1, n2, n3⟩ := hhne n hn
      obtain ⟨o1, o2, o3, o4⟩ := hops n n1 n2 n3
      obtain ⟨q1, q2, q3, q4, q5⟩ := I.host_node n hn
      refine ⟨o1.trans q1, o2.trans q2, o3.trans q3, o4.trans q4, ?_⟩
      rw [r5.parent n n3, m1, if_neg, r3.parent n n2, r2.parent n n1, q5]
      intro hm
      obtain ⟨x, hx, e⟩ := List.mem_map.1 hm
      exact hhost n hn x (hrest x hx).1 e.symm
    · intro x hx
      obtain ⟨n1, n2, n3⟩ := hne x hx
      obtain ⟨a1, a2, a3, a4⟩ := hfr x hx
      obtain ⟨o1, o2, o3, o4⟩ := hops (f x) n1 n2 n3
      obtain ⟨q1, q2, q3⟩ := I.node x a1
      refine ⟨o1.trans q1, o2.trans q2, o3.trans q3, o4.trans (hk x ((hd.mem x).1 a1)).1, ?_⟩
      rw [r5.parent _ n3, m1]
      by_cases hpx : r.hier.parent x = some r.entrypoint
      · rw [if_pos hpx, if_pos]
        have : x ∈ r.children r.entrypoint := (htr.child_iff _ _).2 hpx
        rw [hch] at this
        rcases List.mem_cons.1 this with e | this
        · exact absurd e a3
        · rcases List.mem_cons.1 this with e | this
          · exact absurd e a4
          · exact List.mem_map.2 ⟨x, this, rfl⟩
      · rw [if_neg hpx, if_neg, hparent3 x a1 a3 a4, hpn x a1 a2]
        intro hm
        obtain ⟨y, hy, e⟩ := List.mem_map.1 hm
        have e' := hinj y (hrest y hy).1 x a1 e
        exact hpx (e' ▸ (hrest y hy).2.2.2.2)
    · change h5.hier.children p = _
      rw [r5.children, m2, hc3.symm, hc3, r3.children, r2.children, I.host_children p hp, hch]
      have : ([(r.entrypoint, p)].filter fun e => decide (e.2 = p)).map (fun e => f e.1) = [f r.entrypoint] := by
        simp
      rw [this]
      exact region_filter (fun x hx => hhne x (ht.parent_live _ _ ((ht.child_iff _ _).1 hx)).1) hfe_rest hfei hfeo
    · intro n hn hnp
      change h5.hier.children n = _
      rw [hkids n hnp, I.host_children n hn]
      have : ([(r.entrypoint, p)].filter fun e => decide (e.2 = n)) = [] := by simp [hnp.symm]
      rw [this, List.map_nil, List.append_nil, List.filter_filter]
      refine List.filter_eq_self.2 ?_
      intro x hx
      have hlx := (ht.parent_live _ _ ((ht.child_iff _ _).1 hx)).1
      obtain ⟨k1, k2, k3⟩ := hhne x hlx
      have : x ∉ rest.map f := by
        intro hm
        obtain ⟨y, hy, e⟩ := List.mem_map.1 hm
        exact hhost x hlx y (hrest y hy).1 e.symm
      simp only [this, k1, k2, k3, ne_eq, not_false_eq_true, decide_true, Bool.and_self]
    · intro x hx
      obtain ⟨a1, a2, a3, a4⟩ := hfr x hx
      have hnp : f x ≠ p := (hhost p hp x a1).symm
      change h5.hier.children (f x) = _
      rw [hkids _ hnp, (hk x ((hd.mem x).1 a1)).2, List.filter_filter]
      refine List.filter_eq_self.2 ?_
      intro y hy
      obtain ⟨c, hc, rfl⟩ := List.mem_map.1 hy
      have hpc := (htr.child_iff _ _).1 hc
      have hDc : c ∈ r.descendants r.entrypoint := (hd.mem c).2 ((Above.of_parent hpc).trans ((hd.mem x).1 a1))
      have hcx : ∀ y, r.hier.parent y = some r.entrypoint → c ≠ y := by
        rintro y hy rfl
        rw [hy] at hpc
        exact a2 (Option.some.inj hpc).symm
      have c1 : f c ≠ f i := fun e => hcx i hpi (hinj c hDc i hDi e)
      have c2 : f c ≠ f o := fun e => hcx o hpo (hinj c hDc o hDo e)
      have c3 : f c ≠ f r.entrypoint := by
        intro e
        cases hinj c hDc _ hDe e
        exact htr.acyclic _ _ hpc ((hd.mem x).1 a1)
      have c4 : f c ∉ rest.map f := by
        intro hm
        obtain ⟨y, hy, e⟩ := List.mem_map.1 hm
        exact hcx y (hrest y hy).2.2.2.2 (hinj y (hrest y hy).1 c hDc e).symm
      simp only [c1, c2, c3, c4, ne_eq, not_false_eq_true, decide_true, Bool.and_self]
    · have hl5 : h5.links = h1.links.filter fun l => (l.src ≠ f i && l.dst ≠ f i) && (l.src ≠ f o && l.dst ≠ f o) &&
          (l.src ≠ f r.entrypoint && l.dst ≠ f r.entrypoint) := by
        rw [r5.links, m4]
        change h3.links.filter _ = _
        rw [r3.links, r2.links, List.filter_filter, List.filter_filter]
        apply List.filter_congr
        intro l _
        simp only [bne, ne_eq]
        by_cases h1 : l.src = f i <;> by_cases h2 : l.dst = f i <;> by_cases h3 : l.src = f o <;>
          by_cases h4 : l.dst = f o <;> by_cases h5 : l.src = f r.entrypoint <;>
          by_cases h6 : l.dst = f r.entrypoint <;> simp [h1, h2, h3, h4, h5, h6]
      rw [hl5]
      refine (I.links.filter _).trans ?_
      rw [List.filter_append]
      refine List.Perm.append ?_ ?_
      · rw [List.filter_eq_self.2]
        intro l hl'
        obtain ⟨b1, _, b3, _⟩ := hl l hl'
        obtain ⟨c1, c2, c3⟩ := hhne _ b1
        obtain ⟨d1, d2, d3⟩ := hhne _ b3
        simp [c1, c2, c3, d1, d2, d3]
      · rw [List.filter_map]
        refine List.Perm.map _ ?_
        rw [List.filter_filter]
        refine List.Perm.of_eq ?_
        apply List.filter_congr
        intro l _
        have key : ∀ x, (x ∈ r.descendants r.entrypoint ∧ f x ≠ f i ∧ f x ≠ f o ∧ f x ≠ f r.entrypoint) ↔
            x ∈ freshNodes r i o := by
          intro x
          rw [mem_fresh htr]
          constructor
          · rintro ⟨h0, h1, h2, h3⟩
            refine ⟨(inside_iff htr).2 ⟨(hd.mem x).1 h0, ?_⟩, ?_, ?_⟩
            · rintro rfl; exact h3 rfl
            · rintro rfl; exact h1 rfl
            · rintro rfl; exact h2 rfl
          · intro hx
            exact ⟨(hfr x hx).1, hne x hx⟩
        rw [Bool.eq_iff_iff]
        simp only [Function.comp, Link.rename, ne_eq, decide_not, Bool.and_eq_true, Bool.not_eq_eq_eq_not,
          Bool.not_true, decide_eq_false_iff_not, decide_eq_true_eq, ← key]
        constructor
        · rintro ⟨⟨⟨⟨a1, a2⟩, a3, a4⟩, a5, a6⟩, b1, b2⟩
          exact ⟨⟨b1, of_decide_eq_true a1, of_decide_eq_true a3, of_decide_eq_true a5⟩, b2,
            of_decide_eq_true a2, of_decide_eq_true a4, of_decide_eq_true a6⟩
        · rintro ⟨⟨b1, a1, a3, a5⟩, b2, a2, a4, a6⟩
          exact ⟨⟨⟨⟨decide_eq_true a1, decide_eq_true a2⟩, decide_eq_true a3, decide_eq_true a4⟩,
            decide_eq_true a5, decide_eq_true a6⟩, b1, b2⟩

end Verif.Patch
