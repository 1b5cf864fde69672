import Verif.Validate.NodeLemmas

/-!
# The checks of edges and ports
-/
namespace Verif.Validate

open Verif.Graph Verif.Ops Verif.Types Verif.Passes

variable {Meta : Type}

/-- Every node has the ports of its operation. -/
def PortsOk (h : Hugr Ops.Op Meta) : Prop :=
  ∀ n, h.live n = true → (h.ops n).tagOk = true ∧ h.ins n = ((h.ops n).ports .incoming).length ∧
    h.outs n = ((h.ops n).ports .outgoing).length

theorem order_found {h : Hugr Ops.Op Meta} (hlk : LinksOk h) (hpo : PortsOk h) (s a : Nat) :
    ((nodeConnections h s a).find? fun c =>
      decide ((h.ops s).portKind .outgoing c.srcPort = .ok (some .stateOrder))).isSome = true ↔
    ∃ o ∈ h.links, o.src = s ∧ o.dst = a ∧ srcKind h o = some .stateOrder := by
  rw [List.find?_isSome]
  unfold nodeConnections
  simp only [List.mem_filter, Bool.and_eq_true, decide_eq_true_eq]
  have hk : ∀ o ∈ h.links, o.src = s →
      ((h.ops s).portKind .outgoing o.srcPort = .ok (some .stateOrder) ↔
        srcKind h o = some .stateOrder) := by
    rintro o ho rfl
    obtain ⟨h1, h2, -⟩ := hlk o ho
    obtain ⟨h3, -, h4⟩ := hpo _ h1
    rw [C10_port_kind _ _ h3 _ (by omega)]
    simp [srcKind]
  constructor
  · rintro ⟨o, ⟨ho, hs, hd⟩, hp⟩
    exact ⟨o, ho, hs, hd, (hk o ho hs).1 hp⟩
  · rintro ⟨o, ho, hs, hd, hp⟩
    exact ⟨o, ⟨ho, hs, hd⟩, (hk o ho hs).2 hp⟩

theorem edgeLoop_ok {h : Hugr Ops.Op Meta} (ht : IsTree h) (hlk : LinksOk h) (hpo : PortsOk h)
    (l : Link) (isStatic : Bool) (fp : Nat) :
    ∀ (fuel a : Nat) (L : List Nat), h.live a = true → a ≠ fp → L.Nodup →
      (∀ m ∈ L, h.live m = true ∧ m ≠ a ∧ Above h.hier.parent m a) → h.cap + 1 ≤ fuel + L.length →
      (edgeLoop h l isStatic fp fuel a = .ok ↔
        (∃ b, Above h.hier.parent a b ∧ h.hier.parent b = some fp ∧
          (isStatic = true ∨ ∃ o ∈ h.links, o.src = l.src ∧ o.dst = b ∧ srcKind h o = some .stateOrder)) ∨
        (isStatic = false ∧ ∃ b g, Above h.hier.parent a b ∧ b ≠ fp ∧ h.hier.parent b = some g ∧
          h.hier.parent fp = some g ∧ (∃ sig, h.ops g = .cfg sig) ∧
          ∃ entry rest, h.children g = entry :: rest ∧ Dominates (RegionEdge h g) entry fp b)) := by
  intro fuel
  induction fuel with
  | zero =>
    intro a L ha _ hL hm hf
    have := nodup_live_length ht hL (fun m h => (hm m h).1)
    omega
  | succ fuel ih =>
    intro a L ha hne hL hm hf
    rw [edgeLoop, getParent_eq ht, getParent_eq ht]
    have hac := ht.acyclic
    cases hp : h.hier.parent a with
    | none =>
      simp only [reduceCtorEq, false_iff]
      rintro (⟨b, hab, hb, -⟩ | ⟨-, b, g, hab, -, hb, -⟩)
      · rw [← hab.eq_of_top hp, hp] at hb; cases hb
      · rw [← hab.eq_of_top hp, hp] at hb; cases hb
    | some ap =>
      simp only []
      by_cases h1 : ap = fp
      · subst h1
        rw [if_pos rfl]
        have hext : (∃ b, Above h.hier.parent a b ∧ h.hier.parent b = some ap ∧
            (isStatic = true ∨ ∃ o ∈ h.links, o.src = l.src ∧ o.dst = b ∧
              srcKind h o = some .stateOrder)) ↔
            (isStatic = true ∨ ∃ o ∈ h.links, o.src = l.src ∧ o.dst = a ∧
              srcKind h o = some .stateOrder) := by
          constructor
          · rintro ⟨b, hab, hb, hx⟩
            cases hab with
            | refl => exact hx
            | step hq hab =>
              rw [hp] at hq; cases hq
              exact absurd hab (hac _ _ hb)
          · intro hx; exact ⟨a, .refl _, hp, hx⟩
        have hdom : ¬ (isStatic = false ∧ ∃ b g, Above h.hier.parent a b ∧ b ≠ ap ∧
            h.hier.parent b = some g ∧
            h.hier.parent ap = some g ∧ (∃ sig, h.ops g = .cfg sig) ∧
            ∃ entry rest, h.children g = entry :: rest ∧ Dominates (RegionEdge h g) entry ap b) := by
          rintro ⟨-, b, g, hab, hb, hbg, hg, -⟩
          cases hab with
          | refl => rw [hp] at hbg; cases hbg; exact hac _ _ hg (.refl _)
          | step hq hab =>
            rw [hp] at hq; cases hq
            cases hab with
            | refl => exact hb rfl
            | step hq hab => rw [hg] at hq; cases hq; exact hac _ _ hbg hab
        rw [hext, or_iff_left hdom, ← order_found hlk hpo]
        cases isStatic with
        | true => simp
        | false =>
          cases hfd : (nodeConnections h l.src a).find? fun c =>
            decide ((h.ops l.src).portKind .outgoing c.srcPort = .ok (some .stateOrder)) <;> simp
      · rw [if_neg h1]
        have hap := (ht.parent_live a ap hp).2
        by_cases h2 : some ap = h.hier.parent fp ∧ isStatic = false
        · rw [if_pos h2, andThen_ok, check_ok, decide_eq_true_eq, cfg_tag_eq, checkDominance_ok ht]
          obtain ⟨h2, rfl⟩ := h2
          have hext : ¬ ∃ b, Above h.hier.parent a b ∧ h.hier.parent b = some fp ∧
            (false = true ∨ ∃ o ∈ h.links, o.src = l.src ∧ o.dst = b ∧
              srcKind h o = some .stateOrder) := by
            rintro ⟨b, hab, hb, -⟩
            cases hab with
            | refl => rw [hp] at hb; cases hb; exact h1 rfl
            | step hq hab =>
              rw [hp] at hq; cases hq
              exact hac _ _ h2.symm (hab.trans (Above.of_parent hb))
          rw [or_iff_right hext]
          constructor
          · rintro ⟨hc, hd⟩
            exact ⟨rfl, a, ap, .refl _, hne, hp, h2.symm, hc, hd⟩
          · rintro ⟨-, b, g, hab, hb, hbg, hg, hc, hd⟩
            rw [← h2] at hg; cases hg
            cases hab with
            | refl => exact ⟨hc, hd⟩
            | step hq hab =>
              rw [hp] at hq; cases hq
              exact absurd hab (hac _ _ hbg)
        · rw [if_neg h2, ih ap (a :: L) hap h1]
          · apply or_congr
            · constructor
              · rintro ⟨b, hab, hx⟩; exact ⟨b, .step hp hab, hx⟩
              · rintro ⟨b, hab, hb, hx⟩
                cases hab with
                | refl => rw [hp] at hb; cases hb; exact absurd rfl h1
                | step hq hab => rw [hp] at hq; cases hq; exact ⟨b, hab, hb, hx⟩
            · apply and_congr_right
              intro hst
              constructor
              · rintro ⟨b, g, hab, hx⟩; exact ⟨b, g, .step hp hab, hx⟩
              · rintro ⟨b, g, hab, hb, hbg, hg, hx⟩
                cases hab with
                | refl =>
                  rw [hp] at hbg; cases hbg
                  exact absurd ⟨hg.symm, hst⟩ h2
                | step hq hab => rw [hp] at hq; cases hq; exact ⟨b, g, hab, hb, hbg, hg, hx⟩
          · refine List.nodup_cons.2 ⟨fun hmem => (hm a hmem).2.1 rfl, hL⟩
          · intro m hmem
            rcases List.mem_cons.1 hmem with rfl | hmem
            · exact ⟨ha, fun he => hac _ _ hp (he ▸ .refl _), Above.of_parent hp⟩
            · obtain ⟨h3, h4, h5⟩ := hm m hmem
              refine ⟨h3, ?_, h5.trans (Above.of_parent hp)⟩
              rintro rfl
              exact hac _ _ hp h5
          · simp only [List.length_cons]; omega

theorem validateEdge_ok {h : Hugr Ops.Op Meta} (ht : IsTree h) (hlk : LinksOk h) (hpo : PortsOk h)
    (l : Link) (kind : Kind) : validateEdge h l kind = .ok ↔ EdgeOk h l kind := by
  unfold validateEdge EdgeOk
  rw [getParent_eq ht, getParent_eq ht]
  cases hs : h.hier.parent l.src with
  | none => simp
  | some fp =>
    simp only [Option.some.injEq]
    cases hd : h.hier.parent l.dst with
    | none =>
      simp only [reduceCtorEq, if_false, false_or, false_and, exists_false, and_false, iff_false]
      split <;> simp
    | some tp =>
      by_cases he : tp = fp
      · subst he
        rw [if_pos rfl]
        simp
      · have he' : ¬ some tp = some fp := by simpa using he
        rw [if_neg he']
        have htp := (ht.parent_live _ _ hd).2
        have hl := edgeLoop_ok ht hlk hpo l kind.isStatic fp (h.cap + 1) tp [] htp he
          List.nodup_nil (by simp) (by simp)
        have hg : (!kind.isStatic && !(kind.isValue && !isLinear kind)) = true ↔
            ¬ (kind.isStatic = true ∨ ∃ t, kind = .value t ∧ t.copyable = true) := by
          cases kind <;> simp [Kind.isStatic, Kind.isValue, isLinear]
        have hv : (∃ t, kind = .value t ∧ t.copyable = true) → kind.isStatic = false := by
          rintro ⟨t, rfl, -⟩; rfl
        by_cases hk : (!kind.isStatic && !(kind.isValue && !isLinear kind)) = true
        · rw [if_pos hk]
          rw [hg] at hk
          simp only [reduceCtorEq, false_iff]
          rintro ⟨p, rfl, hc | ⟨q, a, -, -, hc | hc⟩⟩
          · simp at hc; exact he hc
          · exact hk (Or.inl hc.1)
          · exact hk (Or.inr hc.1)
        · rw [if_neg hk]
          simp only []
          rw [hl]
          rw [hg, not_not] at hk
          constructor
          · rintro (⟨b, hab, hb, hx⟩ | ⟨hst, b, g, hab, hb, hbg, hg', ⟨sig, hc⟩, entry, rest, h1, h2⟩)
            · by_cases hst : kind.isStatic = true
              · exact ⟨fp, rfl, Or.inr ⟨tp, b, rfl, hab, Or.inl ⟨hst, hb⟩⟩⟩
              · exact ⟨fp, rfl, Or.inr ⟨tp, b, rfl, hab, Or.inr ⟨hk.resolve_left hst,
                  Or.inl ⟨hb, hx.resolve_left hst⟩⟩⟩⟩
            · exact ⟨fp, rfl, Or.inr ⟨tp, b, rfl, hab, Or.inr ⟨hk.resolve_left (by simp [hst]),
                  Or.inr ⟨g, sig, entry, rest, hb, hg', hbg, hc, h1, h2⟩⟩⟩⟩
          · rintro ⟨p, rfl, hc | ⟨q, a, hq, hab, ⟨hst, hb⟩ | ⟨hval, ⟨hb, hx⟩ |
              ⟨g, sig, entry, rest, hb, hg', hbg, hc, h1, h2⟩⟩⟩⟩
            · simp at hc; exact absurd hc he
            · cases hq
              exact Or.inl ⟨a, hab, hb, Or.inl hst⟩
            · cases hq
              exact Or.inl ⟨a, hab, hb, Or.inr hx⟩
            · cases hq
              exact Or.inr ⟨hv hval, a, g, hab, hb, hbg, hg', ⟨sig, hc⟩, entry, rest, h1, h2⟩

/-! ## Ports -/

theorem validateIncoming_ok {h : Hugr Ops.Op Meta} (hpo : PortsOk h) (n port : Nat) (kind : Kind)
    (hn : h.live n = true) (hk : ((h.ops n).ports .incoming)[port]? = some kind) :
    validateIncoming h n port = .ok ↔ InDegreeOk kind (linksTo h n port).length := by
  obtain ⟨h1, h2, -⟩ := hpo n hn
  have hlt : port < ((h.ops n).ports .incoming).length := (List.getElem?_eq_some_iff.1 hk).1
  have hcase : (h.ops n).opTag ≠ .case := by
    intro hc
    cases hop : h.ops n <;> simp [hop, Op.opTag] at hc
    simp [hop, Op.ports] at hlt
  unfold validateIncoming
  rw [C10_port_kind _ _ h1 _ hlt, hk]
  simp only [andThen_ok, check_ok]
  have hlen : (h.linkedOutputs n port).length = (linksTo h n port).length := by
    simp [Hugr.linkedOutputs, linksTo]
  have hemp : (h.linkedOutputs n port).isEmpty = decide ((linksTo h n port).length = 0) := by
    rw [← hlen]; cases h.linkedOutputs n port <;> simp
  rw [hlen, hemp]
  generalize (linksTo h n port).length = k
  cases kind <;> simp [InDegreeOk, Kind.isValue, isConst, hcase] <;> omega

theorem validateLinks_ok {h : Hugr Ops.Op Meta} (n port : Nat) (kind : Kind) (unique : Bool) :
    ∀ (ls : List (Nat × Nat)) (first : Bool),
      validateLinks h n port kind unique first ls = .ok ↔
        (unique = true → ls.length ≤ if first then 1 else 0) ∧
        ∀ m ∈ ls, checkKind kind ⟨n, port, m.1, m.2⟩ ((h.ops m.1).portKind .incoming m.2) = .ok ∧
          validateEdge h ⟨n, port, m.1, m.2⟩ kind = .ok := by
  intro ls
  induction ls with
  | nil => intro first; simp [validateLinks]
  | cons m ls ih =>
    intro first
    obtain ⟨m, mp⟩ := m
    simp only [validateLinks, andThen_ok, check_ok, ih, List.mem_cons, forall_eq_or_imp]
    cases unique <;> cases first <;> simp <;> tauto

theorem checkKind_ok (kind : Kind) (l : Link) (r : Run (Option Kind)) :
    checkKind kind l r = .ok ↔ r = .ok (some kind) := by
  unfold checkKind
  split <;> simp_all

theorem validateOutgoing_ok {h : Hugr Ops.Op Meta} (ht : IsTree h) (hlk : LinksOk h)
    (hpo : PortsOk h) (C : Context) (decls : List Term) (n port : Nat) (kind : Kind)
    (hn : h.live n = true) (hk : ((h.ops n).ports .outgoing)[port]? = some kind) :
    validateOutgoing C h decls n port = .ok ↔
      OutDegreeOk kind (linksFrom h n port).length ∧ KindOk C decls kind ∧
      ∀ l ∈ linksFrom h n port,
        ((h.ops l.dst).ports .incoming)[l.dstPort]? = some kind ∧ EdgeOk h l kind := by
  obtain ⟨h1, -, -⟩ := hpo n hn
  have hlt : port < ((h.ops n).ports .outgoing).length := (List.getElem?_eq_some_iff.1 hk).1
  unfold validateOutgoing
  rw [C10_port_kind _ _ h1 _ hlt, hk]
  simp only [andThen_ok, check_ok, validateLinks_ok]
  have hlen : (h.linkedInputs n port).length = (linksFrom h n port).length := by
    simp [Hugr.linkedInputs, linksFrom]
  have hemp : (h.linkedInputs n port).isEmpty = decide ((linksFrom h n port).length = 0) := by
    rw [← hlen]; cases h.linkedInputs n port <;> simp
  have hall : (∀ m ∈ h.linkedInputs n port,
        checkKind kind ⟨n, port, m.1, m.2⟩ ((h.ops m.1).portKind .incoming m.2) = .ok ∧
          validateEdge h ⟨n, port, m.1, m.2⟩ kind = .ok) ↔
      ∀ l ∈ linksFrom h n port,
        ((h.ops l.dst).ports .incoming)[l.dstPort]? = some kind ∧ EdgeOk h l kind := by
    have hone : ∀ l ∈ linksFrom h n port,
        ((checkKind kind ⟨n, port, l.dst, l.dstPort⟩ ((h.ops l.dst).portKind .incoming l.dstPort) = .ok ∧
          validateEdge h ⟨n, port, l.dst, l.dstPort⟩ kind = .ok) ↔
        ((h.ops l.dst).ports .incoming)[l.dstPort]? = some kind ∧ EdgeOk h l kind) := by
      intro l hl
      unfold linksFrom at hl
      simp only [List.mem_filter, Bool.and_eq_true, decide_eq_true_eq] at hl
      obtain ⟨hl, rfl, rfl⟩ := hl
      obtain ⟨-, -, h2, h3⟩ := hlk l hl
      obtain ⟨h4, h5, -⟩ := hpo _ h2
      rw [checkKind_ok, validateEdge_ok ht hlk hpo, C10_port_kind _ _ h4 _ (by omega)]
      simp
    constructor
    · intro hx l hl
      refine (hone l hl).1 (hx (l.dst, l.dstPort) ?_)
      exact List.mem_map.2 ⟨l, hl, rfl⟩
    · rintro hx m hm
      obtain ⟨l, hl, rfl⟩ := List.mem_map.1 hm
      exact (hone l hl).2 (hx l hl)
  rw [hall, hlen, hemp]
  have hv : validatePortKind C decls kind = true ↔ KindOk C decls kind := by
    cases kind <;> simp [validatePortKind, KindOk]
  rw [hv]
  have hdeg : ((!((isLinear kind || decide (kind = .controlFlow)) &&
        decide ((linksFrom h n port).length = 0))) = true ∧
      ((isLinear kind || decide (kind = .controlFlow)) = true → (linksFrom h n port).length ≤ 1)) ↔
      OutDegreeOk kind (linksFrom h n port).length := by
    generalize (linksFrom h n port).length = k
    cases kind with
    | value t =>
      cases hc : t.copyable <;> simp [isLinear, OutDegreeOk, hc]; omega
    | controlFlow => simp [isLinear, OutDegreeOk]; omega
    | _ => simp [isLinear, OutDegreeOk]
  rw [← hdeg]
  simp only [if_true]
  tauto

end Verif.Validate
