import Verif.Validate.EdgeLemmas

/-!
# The traversal of the hierarchy, and linkage
-/
namespace Verif.Validate

open Verif.Graph Verif.Ops Verif.Types Verif.Passes

variable {Meta : Type}

theorem checkTerms_length : ∀ (args params : List Term), checkTerms args params = true →
    args.length = params.length
  | [], [], _ => rfl
  | _ :: ts, _ :: tys, h => by
    rw [checkTerms, Bool.and_eq_true] at h
    simp [checkTerms_length ts tys h.2]
  | [], _ :: _, h => by simp [checkTerms] at h
  | _ :: _, [], h => by simp [checkTerms] at h

theorem validateArgs_ok (C : Context) (decls : List Term) (ext name : String) (args : List Term)
    (sig : Signature) :
    validateArgs C (C.defs ext name) args decls = true ↔
      ArgsOk C decls (.extensionOp ext name args sig) := by
  simp only [ArgsOk, validateArgs]
  generalize C.defs ext name = f
  cases f with
  | poly params => simp
  | missing => simp
  | custom static compute =>
    simp only [Bool.and_eq_true]
    constructor
    · rintro ⟨⟨h1, h2⟩, h3⟩
      cases hc : compute (args.take (min static.length args.length)) with
      | none => simp [hc] at h3
      | some params =>
        rw [hc] at h3
        simp only [Bool.and_eq_true] at h3
        exact ⟨_, _, params, (List.take_append_drop _ _).symm, h1, h2, hc, h3.1, h3.2⟩
    · rintro ⟨sa, oa, params, rfl, h1, h2, h3, h4, h5⟩
      have hl := checkTerms_length _ _ h2
      have ht : (sa ++ oa).take (min static.length (sa ++ oa).length) = sa := by
        rw [← hl, Nat.min_eq_left (by simp), List.take_left]
      have hdr : (sa ++ oa).drop (min static.length (sa ++ oa).length) = oa := by
        rw [← hl, Nat.min_eq_left (by simp), List.drop_left]
      rw [ht, hdr, h3]
      simp [h1, h2, h4, h5]

theorem validateCall_ok (C : Context) (n : Nat) (sig : PolyFunc) (args : List Term) (inst : Signature) :
    validateCall C n sig args inst = .ok ↔ sig.instantiate C.types args = .ok inst := by
  unfold validateCall
  cases sig.instantiate C.types args <;> simp

theorem validateOp_ok (C : Context) (decls : List Term) (n : Nat) (op : Ops.Op) :
    validateOp C decls n op = .ok ↔ ArgsOk C decls op := by
  cases op
  case extensionOp ext name args sig =>
    simp only [validateOp, check_ok]
    exact validateArgs_ok C decls ext name args sig
  case call => simp only [validateOp, validateCall_ok, ArgsOk]
  case loadFunction => simp only [validateOp, validateCall_ok, ArgsOk]
  all_goals simp [validateOp, ArgsOk]

/-! ## The traversal -/

/-- The checks of one node, with the variables that may be used there. -/
def NodeOk (C : Context) (h : Hugr Ops.Op Meta) (decls : List Term) (n : Nat) : Prop :=
  validateOp C decls n (h.ops n) = .ok ∧
  forAll (validateIncoming h n) (List.range (h.numPorts n .incoming)) = .ok ∧
  forAll (validateOutgoing C h decls n) (List.range (h.numPorts n .outgoing)) = .ok

/-- The variables with which the traversal, begun at `n0` with `d0`, reaches a node. -/
inductive DeclsFrom (h : Hugr Ops.Op Meta) (n0 : Nat) (d0 : List Term) : Nat → List Term → Prop
  | here : DeclsFrom h n0 d0 n0 d0
  | child {m p : Nat} {d : List Term} : h.hier.parent m = some p → DeclsFrom h n0 d0 p d →
      DeclsFrom h n0 d0 m (declsBelow (h.ops p) d)

theorem declsFrom_first {h : Hugr Ops.Op Meta} {n0 m : Nat} {d0 d : List Term} :
    DeclsFrom h n0 d0 m d ↔ (m = n0 ∧ d = d0) ∨
      ∃ c, h.hier.parent c = some n0 ∧ DeclsFrom h c (declsBelow (h.ops n0) d0) m d := by
  constructor
  · intro hd
    induction hd with
    | here => exact Or.inl ⟨rfl, rfl⟩
    | child hp _ ih =>
      rcases ih with ⟨rfl, rfl⟩ | ⟨c, hc, hd⟩
      · exact Or.inr ⟨_, hp, .here⟩
      · exact Or.inr ⟨c, hc, .child hp hd⟩
  · rintro (⟨rfl, rfl⟩ | ⟨c, hc, hd⟩)
    · exact .here
    · induction hd with
      | here => exact .child hc .here
      | child hp _ ih => exact .child hp ih

theorem validateSubtree_ok {h : Hugr Ops.Op Meta} (ht : IsTree h) (C : Context) :
    ∀ (fuel n0 : Nat) (d0 : List Term) (L : List Nat), h.live n0 = true → L.Nodup →
      (∀ m ∈ L, h.live m = true ∧ m ≠ n0 ∧ Above h.hier.parent n0 m) →
      h.cap + 1 ≤ fuel + L.length →
      (validateSubtree C h fuel d0 n0 = .ok ↔ ∀ m d, DeclsFrom h n0 d0 m d → NodeOk C h d m) := by
  intro fuel
  induction fuel with
  | zero =>
    intro n0 d0 L _ hL hm hf
    have := nodup_live_length ht hL (fun m h => (hm m h).1)
    omega
  | succ fuel ih =>
    intro n0 d0 L hn hL hm hf
    have hac := ht.acyclic
    have hkids : ∀ c, h.hier.parent c = some n0 →
        (validateSubtree C h fuel (declsBelow (h.ops n0) d0) c = .ok ↔
          ∀ m d, DeclsFrom h c (declsBelow (h.ops n0) d0) m d → NodeOk C h d m) := by
      intro c hc
      apply ih c _ (n0 :: L) (ht.parent_live _ _ hc).1
      · exact List.nodup_cons.2 ⟨fun hmem => (hm _ hmem).2.1 rfl, hL⟩
      · intro m hmem
        rcases List.mem_cons.1 hmem with rfl | hmem
        · exact ⟨hn, fun he => hac _ _ hc (he ▸ .refl _), Above.of_parent hc⟩
        · obtain ⟨h1, h2, h3⟩ := hm m hmem
          refine ⟨h1, ?_, .step hc h3⟩
          rintro rfl
          exact hac _ _ hc h3
      · simp only [List.length_cons]; omega
    rw [validateSubtree, andThen_ok, andThen_ok, andThen_ok, forAll_ok (validateSubtree C h fuel _)]
    constructor
    · rintro ⟨h1, h2, h3, h4⟩ m d hd
      rcases declsFrom_first.1 hd with ⟨rfl, rfl⟩ | ⟨c, hc, hd⟩
      · exact ⟨h1, h2, h3⟩
      · exact (hkids c hc).1 (h4 c ((mem_children ht _ _).2 hc)) m d hd
    · intro hall
      obtain ⟨h1, h2, h3⟩ := hall n0 d0 .here
      refine ⟨h1, h2, h3, fun c hc => ?_⟩
      have hc := (mem_children ht _ _).1 hc
      exact (hkids c hc).2 fun m d hd => hall m d (declsFrom_first.2 (Or.inr ⟨c, hc, hd⟩))

theorem declsFrom_iff {h : Hugr Ops.Op Meta} (ht : IsTree h) (m : Nat) (d : List Term) :
    DeclsFrom h h.moduleRoot [] m d ↔ DeclsAt h m d ∧ h.live m = true := by
  have hex : ∀ m, h.live m = true → ∃ d, DeclsFrom h h.moduleRoot [] m d := by
    intro m hm
    have := ht.reaches_root m hm
    generalize hr : h.moduleRoot = r at this
    induction this with
    | refl n => subst hr; exact ⟨[], DeclsFrom.here⟩
    | step hp _ ih =>
      obtain ⟨d, hd⟩ := ih (ht.parent_live _ _ hp).2 hr
      exact ⟨_, .child hp hd⟩
  constructor
  · intro hd
    induction hd with
    | here => exact ⟨.root, ht.root_live⟩
    | @child m p d hp _ ih =>
      refine ⟨?_, (ht.parent_live _ _ hp).1⟩
      cases hop : h.ops p <;> simp only [declsBelow]
      case funcDefn name sig => exact .inside hp hop
      all_goals exact .inherited hp (by simp [hop]) ih.1
  · rintro ⟨hd, hl⟩
    induction hd with
    | root => exact .here
    | inside hp hop =>
      obtain ⟨d, hd⟩ := hex _ (ht.parent_live _ _ hp).2
      have := DeclsFrom.child hp hd
      rw [hop] at this
      exact this
    | @inherited n p decls hp hop _ ih =>
      have := DeclsFrom.child hp (ih (ht.parent_live _ _ hp).2)
      cases hop' : h.ops p
      case funcDefn name sig => exact absurd hop' (hop _ _)
      all_goals (rw [hop'] at this; exact this)

theorem declsAt_exists {h : Hugr Ops.Op Meta} (ht : IsTree h) (m : Nat) (hm : h.live m = true) :
    ∃ d, DeclsAt h m d := by
  have := ht.reaches_root m hm
  generalize hr : h.moduleRoot = r at this
  induction this with
  | refl n => subst hr; exact ⟨[], DeclsAt.root⟩
  | @step n p r hp _ ih =>
    obtain ⟨d, hd⟩ := ih (ht.parent_live _ _ hp).2 hr
    by_cases hop : ∃ name sig, h.ops p = .funcDefn name sig
    · obtain ⟨name, sig, hop⟩ := hop
      exact ⟨_, .inside hp hop⟩
    · exact ⟨d, .inherited hp (fun name sig he => hop ⟨name, sig, he⟩) hd⟩

theorem nodeOk_iff {h : Hugr Ops.Op Meta} (ht : IsTree h) (hlk : LinksOk h)
    (hpo : PortsOk h) (C : Context) (decls : List Term) (n : Nat) (hn : h.live n = true) :
    NodeOk C h decls n ↔
      (ArgsOk C decls (h.ops n) ∧ ∀ kind ∈ (h.ops n).ports .outgoing, KindOk C decls kind) ∧
      (∀ port kind, ((h.ops n).ports .incoming)[port]? = some kind →
        InDegreeOk kind (linksTo h n port).length) ∧
      (∀ port kind, ((h.ops n).ports .outgoing)[port]? = some kind →
        OutDegreeOk kind (linksFrom h n port).length) ∧
      ∀ l ∈ h.links, l.src = n → ∃ kind, srcKind h l = some kind ∧
        ((h.ops l.dst).ports .incoming)[l.dstPort]? = some kind ∧ EdgeOk h l kind := by
  obtain ⟨h1, h2, h3⟩ := hpo n hn
  unfold NodeOk
  rw [validateOp_ok, forAll_ok, forAll_ok]
  simp only [List.mem_range, Hugr.numPorts]
  constructor
  · rintro ⟨hop, hin, hout⟩
    have hout' : ∀ port kind, ((h.ops n).ports .outgoing)[port]? = some kind → _ := fun port kind hk =>
      (validateOutgoing_ok ht hlk hpo C decls n port kind hn hk).1
        (hout port (h3 ▸ (List.getElem?_eq_some_iff.1 hk).1))
    refine ⟨⟨hop, fun kind hk => ?_⟩, fun port kind hk => ?_, fun port kind hk => (hout' _ _ hk).1,
      fun l hl hs => ?_⟩
    · obtain ⟨port, hp⟩ := List.getElem?_of_mem hk
      exact (hout' _ _ hp).2.1
    · exact (validateIncoming_ok hpo n port kind hn hk).1
        (hin port (h2 ▸ (List.getElem?_eq_some_iff.1 hk).1))
    · subst hs
      have hlt : l.srcPort < ((h.ops l.src).ports .outgoing).length := h3 ▸ (hlk l hl).2.1
      refine ⟨_, List.getElem?_eq_getElem hlt, ?_⟩
      exact (hout' _ _ (List.getElem?_eq_getElem hlt)).2.2 l (by simp [linksFrom, hl])
  · rintro ⟨⟨hop, hty⟩, hin, hout, hl⟩
    refine ⟨hop, fun port hp => ?_, fun port hp => ?_⟩
    · rw [h2] at hp
      exact (validateIncoming_ok hpo n port _ hn (List.getElem?_eq_getElem hp)).2
        (hin _ _ (List.getElem?_eq_getElem hp))
    · rw [h3] at hp
      have hk := List.getElem?_eq_getElem hp
      rw [validateOutgoing_ok ht hlk hpo C decls n port _ hn hk]
      refine ⟨hout _ _ hk, hty _ (List.getElem_mem hp), fun l hm => ?_⟩
      unfold linksFrom at hm
      simp only [List.mem_filter, Bool.and_eq_true, decide_eq_true_eq] at hm
      obtain ⟨hm, rfl, rfl⟩ := hm
      obtain ⟨kind, hk', hx⟩ := hl l hm rfl
      unfold srcKind at hk'
      rw [hk] at hk'
      cases hk'
      exact hx

/-! ## Linkage -/

theorem exported_iff (C : Context) (h : Hugr Ops.Op Meta) (n : Nat) (name : String) (sig : PolyFunc)
    (d : Bool) (hn : n ∈ h.children h.moduleRoot) :
    exported C h n = some (name, sig, d) ↔ Exports C h n name sig d := by
  unfold exported Exports
  cases hop : h.ops n <;> simp [hn] <;> cases d <;> simp <;> tauto

/-- What the loop has seen is what it found among the nodes before. -/
theorem linkageLoop_ok (C : Context) (h : Hugr Ops.Op Meta) :
    ∀ (cs done : List Nat) (seen : List (String × Nat × PolyFunc × Bool)),
      (∀ name v, seen.lookup name = some v → v.1 ∈ done ∧ exported C h v.1 = some (name, v.2)) →
      (∀ a ∈ done, ∀ name v, exported C h a = some (name, v) →
        ∃ w, seen.lookup name = some w ∧ (a ≠ w.1 → v.1 = w.2.1 ∧ v.2 = false ∧ w.2.2 = false)) →
      (done ++ cs).Nodup →
      (linkageLoop C h seen cs = .ok ↔
        ∀ a ∈ done ++ cs, ∀ b ∈ cs, ∀ name v w, exported C h a = some (name, v) →
          exported C h b = some (name, w) → a ≠ b → v.1 = w.1 ∧ v.2 = false ∧ w.2 = false) := by
  intro cs
  induction cs with
  | nil => intro done seen _ _ _; simp [linkageLoop]
  | cons c cs ih =>
    intro done seen h1 h2 hnd
    have hnd' : (done ++ [c] ++ cs).Nodup := by simpa using hnd
    have hc : c ∉ done := by
      intro hm
      rw [List.nodup_append] at hnd
      exact hnd.2.2 c hm c (by simp) rfl
    rw [linkageLoop]
    cases he : exported C h c with
    | none =>
      simp only []
      rw [ih (done ++ [c]) seen ?_ ?_ hnd']
      · constructor
        · intro hall a ha b hb name v w hva hwb hab
          rcases List.mem_cons.1 hb with rfl | hb
          · rw [he] at hwb; cases hwb
          · exact hall a (by simpa using ha) b hb name v w hva hwb hab
        · intro hall a ha b hb
          exact hall a (by simpa using ha) b (List.mem_cons_of_mem _ hb)
      · intro name v hv
        obtain ⟨h3, h4⟩ := h1 name v hv
        exact ⟨List.mem_append_left _ h3, h4⟩
      · intro a ha name v hv
        rcases List.mem_append.1 ha with ha | ha
        · exact h2 a ha name v hv
        · rw [List.mem_singleton] at ha; subst ha; rw [he] at hv; cases hv
    | some x =>
      obtain ⟨name, sig, isDefn⟩ := x
      simp only []
      cases hs : seen.lookup name with
      | none =>
        simp only []
        have hnone : ∀ a ∈ done, ∀ v, exported C h a ≠ some (name, v) := by
          intro a ha v hv
          obtain ⟨w, hw, -⟩ := h2 a ha name v hv
          rw [hs] at hw; cases hw
        rw [ih (done ++ [c]) _ ?_ ?_ hnd']
        · constructor
          · intro hall a ha b hb nm v w hva hwb hab
            rcases List.mem_cons.1 hb with rfl | hb
            · rw [he] at hwb
              cases hwb
              rcases List.mem_append.1 ha with ha | ha
              · exact absurd hva (hnone a ha v)
              · rcases List.mem_cons.1 ha with rfl | ha
                · exact absurd rfl hab
                · obtain ⟨q1, q2, q3⟩ := hall b (by simp) a ha _ _ _ he hva (Ne.symm hab)
                  exact ⟨q1.symm, q3, q2⟩
            · exact hall a (by simpa using ha) b hb nm v w hva hwb hab
          · intro hall a ha b hb
            exact hall a (by simpa using ha) b (List.mem_cons_of_mem _ hb)
        · intro nm v hv
          rw [List.lookup_cons] at hv
          split at hv
          · rename_i hnm
            simp only [beq_iff_eq] at hnm
            cases hv
            subst hnm
            exact ⟨by simp, he⟩
          · obtain ⟨h3, h4⟩ := h1 nm v hv
            exact ⟨List.mem_append_left _ h3, h4⟩
        · intro a ha nm v hv
          rw [List.lookup_cons]
          rcases List.mem_append.1 ha with ha | ha
          · obtain ⟨w, hw, hx⟩ := h2 a ha nm v hv
            have : (nm == name) = false := by
              simp only [beq_eq_false_iff_ne, ne_eq]
              rintro rfl
              exact hnone a ha v hv
            exact ⟨w, by simp [this, hw], hx⟩
          · rw [List.mem_singleton] at ha; subst ha
            rw [he] at hv; cases hv
            exact ⟨(a, sig, isDefn), by simp, fun hne => absurd rfl hne⟩
      | some prev =>
        obtain ⟨prev, prevSig, prevDefn⟩ := prev
        simp only []
        obtain ⟨hp1, hp2⟩ := h1 name _ hs
        simp only [] at hp1 hp2
        have hne : prev ≠ c := fun he => hc (he ▸ hp1)
        by_cases hbad : prevSig ≠ sig ∨ isDefn = true ∨ prevDefn = true
        · rw [if_pos hbad]
          simp only [reduceCtorEq, false_iff]
          intro hall
          obtain ⟨q1, q2, q3⟩ := hall prev (List.mem_append_left _ hp1) c (by simp) name _ _ hp2 he hne
          simp only [] at q1 q2 q3
          rcases hbad with hb | hb | hb
          · exact hb q1
          · rw [q3] at hb; cases hb
          · rw [q2] at hb; cases hb
        · rw [if_neg hbad]
          simp only [not_or, not_not, Bool.not_eq_true] at hbad
          obtain ⟨rfl, rfl, rfl⟩ := hbad
          rw [ih (done ++ [c]) seen ?_ ?_ hnd']
          · constructor
            · intro hall a ha b hb nm v w hva hwb hab
              rcases List.mem_cons.1 hb with rfl | hb
              · rw [he] at hwb; cases hwb
                rcases List.mem_append.1 ha with ha | ha
                · obtain ⟨w, hw, hx⟩ := h2 a ha name v hva
                  rw [hs] at hw; cases hw
                  by_cases hap : a = prev
                  · subst hap
                    rw [hp2] at hva; cases hva
                    exact ⟨rfl, rfl, rfl⟩
                  · obtain ⟨q1, q2, -⟩ := hx hap
                    exact ⟨q1, q2, rfl⟩
                · rcases List.mem_cons.1 ha with rfl | ha
                  · exact absurd rfl hab
                  · obtain ⟨q1, q2, q3⟩ := hall b (by simp) a ha _ _ _ he hva (Ne.symm hab)
                    exact ⟨q1.symm, q3, q2⟩
              · exact hall a (by simpa using ha) b hb nm v w hva hwb hab
            · intro hall a ha b hb
              exact hall a (by simpa using ha) b (List.mem_cons_of_mem _ hb)
          · intro nm v hv
            obtain ⟨h3, h4⟩ := h1 nm v hv
            exact ⟨List.mem_append_left _ h3, h4⟩
          · intro a ha nm v hv
            rcases List.mem_append.1 ha with ha | ha
            · exact h2 a ha nm v hv
            · rw [List.mem_singleton] at ha; subst ha
              rw [he] at hv; cases hv
              exact ⟨_, hs, fun _ => ⟨rfl, rfl, rfl⟩⟩

theorem linkage_ok {h : Hugr Ops.Op Meta} (ht : IsTree h) (C : Context) :
    linkageLoop C h [] (h.children h.moduleRoot) = .ok ↔
      ∀ a b name siga sigb da db, Exports C h a name siga da → Exports C h b name sigb db →
        a ≠ b → siga = sigb ∧ da = false ∧ db = false := by
  rw [linkageLoop_ok C h (h.children h.moduleRoot) [] [] (by simp) (by simp) (ht.child_once h.moduleRoot)]
  simp only [List.nil_append]
  constructor
  · intro hall a b name siga sigb da db ha hb hab
    exact hall a ha.1 b hb.1 name (siga, da) (sigb, db) ((exported_iff C h a _ _ _ ha.1).2 ha)
      ((exported_iff C h b _ _ _ hb.1).2 hb) hab
  · intro hall a ha b hb name v w hv hw hab
    exact hall a b name v.1 w.1 v.2 w.2 ((exported_iff C h a _ _ _ ha).1 hv)
      ((exported_iff C h b _ _ _ hb).1 hw) hab

end Verif.Validate
