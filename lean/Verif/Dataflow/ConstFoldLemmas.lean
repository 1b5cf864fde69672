import Verif.Dataflow.ConstFoldSpec
import Verif.Dataflow.AnalysisProps
import Verif.Dataflow.SimLemmas
import Verif.Graph.Bfs

/-!
# Constant folding: the values of broken wires
-/
namespace Verif.Dataflow

open Verif.Graph Verif.Ops Verif.Passes Verif.Validate PV

variable {Meta W E : Type}

/-! ## Concrete values become less -/

section Advance
variable [DecidableEq E] (F : Folder E)

/-- `b` comes after `a`: it does not contain a bottom that `a` does not contain, and if it is a
concrete value, so was `a`. -/
def Adv (a b : Abs (Handle E)) : Prop :=
  (b.containsBottom = true → a.containsBottom = true) ∧
  ∀ t c, b.tryIntoConcrete (toValue F) t = .ok c →
    a.containsBottom = true ∨ a.tryIntoConcrete (toValue F) t = .ok c

theorem Adv.refl (a : Abs (Handle E)) : Adv F a a := ⟨id, fun _ _ h => .inr h⟩

theorem Adv.trans {a b c : Abs (Handle E)} (h1 : Adv F a b) (h2 : Adv F b c) : Adv F a c := by
  refine ⟨fun h => h1.1 (h2.1 h), fun t x hx => ?_⟩
  rcases h2.2 t x hx with h | h
  · exact .inl (h1.1 h)
  · exact h1.2 t x h

theorem adv_top (a : Abs (Handle E)) : Adv F a .top :=
  ⟨by simp [containsBottom], fun t c h => by simp [tryIntoConcrete] at h⟩

theorem adv_bottom (b : Abs (Handle E)) : Adv F .bottom b :=
  ⟨by simp [containsBottom], fun t c _ => by simp [containsBottom]⟩

theorem rowContainsBottom_iff (row : List (Abs (Handle E))) :
    rowContainsBottom row = true ↔ ∃ x ∈ row, x.containsBottom = true := by
  induction row with
  | nil => simp [rowContainsBottom]
  | cons x row ih => simp [rowContainsBottom, ih]

theorem rowsContainBottom_iff (rows : List (Nat × List (Abs (Handle E)))) :
    rowsContainBottom rows = true ↔ ∀ e ∈ rows, rowContainsBottom e.2 = true := by
  induction rows with
  | nil => simp [rowsContainBottom]
  | cons x rows ih => obtain ⟨k, r⟩ := x; simp [rowsContainBottom, ih]

theorem adv_row {row row' : List (Abs (Handle E))} (h : List.Forall₂ (Adv F) row row') :
    (rowContainsBottom row' = true → rowContainsBottom row = true) ∧
    ∀ ts cs, tryIntoRow (toValue F) row' ts = .ok cs →
      rowContainsBottom (row.take ts.length) = true ∨ tryIntoRow (toValue F) row ts = .ok cs := by
  induction h with
  | nil => exact ⟨id, fun _ _ h => .inr h⟩
  | @cons x y row row' hx _ ih =>
    refine ⟨?_, fun ts cs h => ?_⟩
    · simp only [rowContainsBottom, Bool.or_eq_true]
      exact Or.imp hx.1 ih.1
    · cases ts with
      | nil => right; simpa [tryIntoRow] using h
      | cons t ts =>
        simp only [tryIntoRow] at h ⊢
        cases hy : tryIntoConcrete (toValue F) y t with
        | error e => rw [hy] at h; simp at h
        | ok c =>
          rw [hy] at h
          simp only [] at h
          cases hr : tryIntoRow (toValue F) row' ts with
          | error e => rw [hr] at h; simp at h
          | ok cs' =>
            rw [hr] at h
            simp only [List.length_cons, List.take_succ_cons, rowContainsBottom, Bool.or_eq_true]
            rcases hx.2 t c hy with h1 | h1
            · exact .inl (.inl h1)
            · rcases ih.2 ts cs' hr with h2 | h2
              · exact .inl (.inr h2)
              · rw [h1, h2]; exact .inr h

theorem bmGet_mem {α : Type} {m : List (Nat × α)} {k : Nat} {v : α} (h : bmGet m k = some v) :
    (k, v) ∈ m := by
  induction m with
  | nil => simp [bmGet] at h
  | cons e m ih =>
    obtain ⟨k', v'⟩ := e
    simp only [bmGet] at h
    split at h
    · rename_i he; simp_all
    · exact List.mem_cons_of_mem _ (ih h)

theorem bmGet_of_mem {α : Type} {m : List (Nat × α)} (hs : BmSorted m) {k : Nat} {v : α}
    (h : (k, v) ∈ m) : bmGet m k = some v := by
  induction m with
  | nil => simp at h
  | cons e m ih =>
    obtain ⟨k', v'⟩ := e
    simp only [bmGet]
    rcases List.mem_cons.1 h with h | h
    · simp only [Prod.mk.injEq] at h; simp [h]
    · have := hs.head_lt _ h
      rw [if_neg (by simp only at this; omega)]
      exact ih hs.tail h

theorem adv_join (a : Abs (Handle E)) : ∀ b, WF a → WF b → Adv F a (join a b).1 := by
  induction a using PV.induct with
  | hbot => exact fun b _ _ => adv_bottom F _
  | htop =>
    intro b _ _
    cases b <;> simp only [join] <;> exact adv_top F _
  | hfunc n x =>
    intro b _ _
    cases b with
    | bottom => exact Adv.refl F _
    | func m y =>
      simp only [join]
      split
      · exact Adv.refl F _
      · exact adv_top F _
    | _ => simp only [join]; exact adv_top F _
  | hval v =>
    intro b _ _
    cases b with
    | bottom => exact Adv.refl F _
    | value w =>
      simp only [join, AbsVal.tryJoin]
      split
      · rename_i heq
        split at heq
        · simp only [Option.some.injEq, Prod.mk.injEq] at heq
          rw [← heq.1]; exact Adv.refl F _
        · simp at heq
      · exact adv_top F _
    | _ => simp only [join]; exact adv_top F _
  | hsum rows ih =>
    intro b ha hb
    cases b with
    | bottom => exact Adv.refl F _
    | psum rows' =>
      simp only [join]
      split
      · rename_i hlen
        rw [joinLengthsOk_iff] at hlen
        simp only [WF] at ha hb
        have hget := joinRows_get rows rows' ha.2.1 hb.2.1
        have hsort := joinRows_sorted rows rows' ha.2.1
        have hwrow : ∀ (rs : List (Nat × List (Abs (Handle E)))), WFRows rs → ∀ e ∈ rs, ∀ x ∈ e.2, WF x := by
          intro rs hr e he x hx
          rw [wfRows_iff] at hr
          exact hr e.1 e.2 he x hx
        -- the row of a tag, after joining
        have hadv : ∀ k row, (k, row) ∈ rows → ∃ row', bmGet (joinRows rows rows').1 k = some row' ∧
            row'.length = row.length ∧ List.Forall₂ (Adv F) row row' := by
          intro k row hm
          have hg := bmGet_of_mem ha.2.1 hm
          have := hget k
          rw [hg] at this
          cases hg' : bmGet rows' k with
          | none =>
            rw [hg'] at this
            exact ⟨row, this, rfl, List.forall₂_same.2 fun x _ => Adv.refl F x⟩
          | some v =>
            rw [hg'] at this
            have hm' := bmGet_mem hg'
            have hl := hlen k v hm' row hg
            refine ⟨_, this, by rw [joinRow_fst _ _ hl]; simp [hl], ?_⟩
            rw [joinRow_fst _ _ hl]
            have h1 := ih k row hm
            have h2 := hwrow rows ha.2.2 _ hm
            have h3 := hwrow rows' hb.2.2 _ hm'
            simp only [] at h2 h3
            clear hm hm' hg hg' this hget hlen
            induction row generalizing v with
            | nil => cases v <;> simp
            | cons x row ihr =>
              cases v with
              | nil => simp at hl
              | cons y v =>
                simp only [List.zipWith_cons_cons]
                exact .cons (h1 x (by simp) y (h2 x (by simp)) (h3 y (by simp)))
                  (ihr v (by simpa using hl) (fun z hz => h1 z (by simp [hz]))
                    (fun z hz => h2 z (by simp [hz])) (fun z hz => h3 z (by simp [hz])))
        generalize (joinRows rows rows').1 = res at hget hsort hadv
        refine ⟨fun hc => ?_, fun t c hc => ?_⟩
        · simp only [containsBottom] at hc ⊢
          rw [rowsContainBottom_iff] at hc ⊢
          rintro ⟨k, row⟩ hm
          obtain ⟨row', hg, _, hf⟩ := hadv k row hm
          exact (adv_row F hf).1 (hc _ (bmGet_mem hg))
        · obtain ⟨⟨k, row⟩, rows1, rfl⟩ : ∃ e r, rows = e :: r := List.exists_cons_of_ne_nil ha.1
          obtain ⟨row', hg, hll, hf⟩ := hadv k row (by simp)
          have hmem := bmGet_mem hg
          simp only [tryIntoConcrete] at hc
          cases res with
          | nil => simp at hmem
          | cons e res =>
            obtain ⟨k', r'⟩ := e
            simp only [tryIntoSum] at hc
            split at hc
            · rename_i hemp
              have hres : res = [] := by simpa using hemp
              subst hres
              simp only [List.mem_singleton, Prod.mk.injEq] at hmem
              obtain ⟨rfl, rfl⟩ := hmem
              have hr1 : rows1 = [] := by
                cases rows1 with
                | nil => rfl
                | cons e2 rows1 =>
                  obtain ⟨k2, row2⟩ := e2
                  obtain ⟨row2', hg2, _⟩ := hadv k2 row2 (by simp)
                  have := bmGet_mem hg2
                  simp only [List.mem_singleton, Prod.mk.injEq] at this
                  have hlt := ha.2.1.head_lt (k2, row2) (by simp)
                  simp only at hlt
                  omega
              subst hr1
              simp only [tryIntoConcrete, tryIntoSum, List.isEmpty_nil, if_true, containsBottom,
                rowsContainBottom, Bool.and_true]
              split at hc
              · rename_i ts hts
                split at hc
                · rename_i hlen'
                  cases hcs : tryIntoRow (toValue F) row' ts with
                  | error e => rw [hcs] at hc; simp at hc
                  | ok cs =>
                    rw [hcs] at hc
                    rcases (adv_row F hf).2 ts cs hcs with h1 | h1
                    · rw [List.take_of_length_le (by omega)] at h1
                      exact .inl h1
                    · rw [h1, if_pos (by omega)]
                      exact .inr hc
                · simp at hc
              · simp at hc
            · simp at hc
      · exact adv_top F _
    | _ => simp only [join]; exact adv_top F _

end Advance

/-! ## Rows along an evaluation -/

section Rows
variable [DecidableEq E] (F : Folder E) {h : Hugr Ops.Op Meta}

/-- All rows of `s'` come after those of `s`. -/
def RowsAdv (h : Hugr Ops.Op Meta) (s s' : AState (Handle E)) : Prop :=
  ∀ n, List.Forall₂ (Adv F) (s.rowOf h n) (s'.rowOf h n)

theorem forall2_trans {α : Type} {R : α → α → Prop} (hR : ∀ a b c, R a b → R b c → R a c)
    {xs ys zs : List α} (h1 : List.Forall₂ R xs ys) (h2 : List.Forall₂ R ys zs) :
    List.Forall₂ R xs zs := by
  induction h1 generalizing zs with
  | nil => exact h2
  | cons hx _ ih =>
    cases h2 with
    | cons hy h2 => exact .cons (hR _ _ _ hx hy) (ih h2)

theorem rowsAdv_refl (s : AState (Handle E)) : RowsAdv F h s s :=
  fun _ => List.forall₂_same.2 fun x _ => Adv.refl F x

theorem rowsAdv_add {s : AState (Handle E)} (hs : StateWF h s) {f : Fact (Handle E)}
    (hf : FactWF h f) : RowsAdv F h s (addFact h s f).1 := by
  cases f with
  | row n vs =>
    obtain ⟨hl, hv⟩ := hf
    have hl' : (s.rowOf h n).length = vs.length := by rw [hl, hs.len]
    intro m
    simp only [addFact, AState.rowOf, Store.get_set]
    split
    · rename_i hm
      subst hm
      have hr := hs.row m
      change List.Forall₂ (Adv F) (s.rowOf h m) (joinRow (s.rowOf h m) vs).1
      rw [joinRow_fst _ _ hl']
      generalize s.rowOf h m = row at hr hl'
      clear hl
      induction row generalizing vs with
      | nil => cases vs <;> simp
      | cons x row ih =>
        cases vs with
        | nil => simp at hl'
        | cons y vs =>
          simp only [List.zipWith_cons_cons]
          exact .cons (adv_join F x y (hr x (by simp)) (hv y (by simp)))
            (ih vs (fun z hz => hv z (by simp [hz])) (fun z hz => hr z (by simp [hz])) (by simpa using hl'))
    · exact List.forall₂_same.2 fun x _ => Adv.refl F x
  | case c k => simp only [addFact]; split <;> exact rowsAdv_refl F s
  | block c k => simp only [addFact]; split <;> exact rowsAdv_refl F s
  | _ => exact rowsAdv_refl F s

theorem trace_adv {K : DFContext (Handle E) E} {proto : List (Nat × Nat × Abs (Handle E))}
    {tr : List (AState (Handle E))} {facts : List (Fact (Handle E))} (hK : ContextWF K)
    (hp : ∀ e ∈ proto, WF e.2.2) (hr : Trace h K proto tr facts) :
    tr.Pairwise fun s' s => RowsAdv F h s s' := by
  induction hr with
  | init => simp
  | derive _ _ ih => exact ih
  | @add s tr facts f htr hf ih =>
    obtain ⟨h1, h2⟩ := trace_all stable_wf (contextAll_wf hK h) (fun _ _ _ _ _ => trivial) hp htr
    have hadv := rowsAdv_add F (h1 s (by simp)) (h2 f hf)
    refine List.pairwise_cons.2 ⟨fun s' hs' => ?_, ih⟩
    rcases List.mem_cons.1 hs' with rfl | hs'
    · exact hadv
    · exact fun n => forall2_trans (R := Adv F) (fun _ _ _ h1 h2 => Adv.trans F h1 h2)
        ((List.pairwise_cons.1 ih).1 s' hs' n) (hadv n)

theorem pairwise_total {α : Type} {R : α → α → Prop} {l : List α} (hp : l.Pairwise R) {a b : α}
    (ha : a ∈ l) (hb : b ∈ l) : a = b ∨ R a b ∨ R b a := by
  induction hp with
  | nil => simp at ha
  | cons hx _ ih =>
    rcases List.mem_cons.1 ha with ha' | ha' <;> rcases List.mem_cons.1 hb with hb' | hb'
    · exact .inl (ha'.trans hb'.symm)
    · exact .inr (.inl (ha' ▸ hx _ hb'))
    · exact .inr (.inr (hb' ▸ hx _ ha'))
    · exact ih ha' hb'

/-- A later row has fewer known inputs. -/
theorem knownIns_sublist {row row' : List (Abs (Handle E))} (hadv : List.Forall₂ (Adv F) row row')
    (hb : rowContainsBottom row = false) (i : Nat) (ts : List Types.Ty) :
    (knownIns F i ts row').Sublist (knownIns F i ts row) := by
  induction hadv generalizing i ts with
  | nil => exact .refl _
  | @cons x y row row' hx _ ih =>
    simp only [rowContainsBottom, Bool.or_eq_false_iff] at hb
    cases ts with
    | nil => simp [knownIns]
    | cons t ts =>
      simp only [knownIns]
      cases hy : tryIntoConcrete (toValue F) y t with
      | error e =>
        simp only []
        split
        · exact (ih hb.2 _ _).cons _
        · exact ih hb.2 _ _
      | ok c =>
        rcases hx.2 t c hy with h1 | h1
        · rw [hb.1] at h1; simp at h1
        · rw [h1]; exact (ih hb.2 _ _).cons_cons _

theorem mem_knownIns {row : List (Abs (Handle E))} {ts : List Types.Ty} {i : Nat}
    {e : Nat × TVal E} (he : e ∈ knownIns F i ts row) : ∃ k a t, e.1 = i + k ∧ row[k]? = some a ∧
      ts[k]? = some t ∧ tryIntoConcrete (toValue F) a t = .ok e.2 := by
  induction row generalizing i ts with
  | nil => cases ts <;> simp [knownIns] at he
  | cons x row ih =>
    cases ts with
    | nil => simp [knownIns] at he
    | cons t ts =>
      have hrec : e ∈ knownIns F (i + 1) ts row → ∃ k a t', e.1 = i + k ∧ (x :: row)[k]? = some a ∧
          (t :: ts)[k]? = some t' ∧ tryIntoConcrete (toValue F) a t' = .ok e.2 := by
        intro h
        obtain ⟨k, a, t', h1, h2, h3, h4⟩ := ih h
        exact ⟨k + 1, a, t', by omega, by simpa using h2, by simpa using h3, h4⟩
      simp only [knownIns] at he
      split at he
      · rename_i c hc
        rcases List.mem_cons.1 he with rfl | he
        · exact ⟨0, x, t, rfl, rfl, rfl, hc⟩
        · exact hrec he
      · exact hrec he

end Rows

/-! ## Where constants that can not be hashed come from -/

theorem leafAt_fun {c : CVal E} {path : List Nat} {e e' : E} (h : LeafAt c path e)
    (h' : LeafAt c path e') : e = e' := by
  induction h with
  | leaf e =>
    cases h' with
    | leaf => rfl
  | @sum tag i vals v path e hv hl ih =>
    generalize hq : path ++ [i] = q at h'
    cases h' with
    | @sum _ j _ v' path' _ hv' hl' =>
      obtain ⟨rfl, h2⟩ := List.append_inj' hq rfl
      simp only [List.cons.injEq, and_true] at h2
      subst h2
      rw [hv] at hv'
      simp only [Option.some.injEq] at hv'
      subst hv'
      exact ih hl'

/-- The leaf `e` was loaded, given, or returned by a folder, with this node and these fields. -/
inductive Origin (F : Folder E) (h : Hugr Ops.Op Meta) (inputs : FoldInputs E)
    (Seen : Nat → List (Abs (Handle E)) → Prop) : Nat → List Nat → E → Prop
  | load {n c : Nat} {path : List Nat} {e : E} : LoadsConst h n c → LeafAt (F.constant c) path e →
      F.hashable e = false → Origin F h inputs Seen n path.reverse e
  | input {x : Nat × List (Nat × CVal E)} {p : Nat} {c : CVal E} {path : List Nat} {e : E} :
      x ∈ inputs → (p, c) ∈ x.2 → LeafAt c path e → F.hashable e = false →
      Origin F h inputs Seen (freshNode h) (p :: path.reverse) e
  | fold {n p : Nat} {row : List (Abs (Handle E))} {c : TVal E} {path : List Nat} {e : E} :
      Seen n row → (p, c) ∈ F.fold n (knownIns F 0 (sigIns (h.ops n)) row) → LeafAt c.1 path e →
      F.hashable e = false → Origin F h inputs Seen n (p :: path.reverse) e

theorem freshNode_live {h : Hugr Ops.Op Meta} (ht : IsTree h) : h.live (freshNode h) = false := by
  cases hl : h.live (freshNode h) with
  | false => rfl
  | true =>
    exfalso
    have hm : freshNode h ∈ h.nodes := by
      simp only [Hugr.nodes, List.mem_filter, List.mem_range]
      exact ⟨ht.in_range _ hl, hl⟩
    have hs : h.nodes.Pairwise (· < ·) := List.Pairwise.filter _ List.pairwise_lt_range
    have hne : h.nodes ≠ [] := List.ne_nil_of_mem hm
    have hlast : freshNode h = h.nodes.getLast hne + 1 := by
      unfold freshNode
      rw [List.getLast?_eq_some_getLast hne]
    have : freshNode h ≤ h.nodes.getLast hne := by
      obtain ⟨xs, hxs⟩ : ∃ xs, h.nodes = xs ++ [h.nodes.getLast hne] :=
        ⟨_, (List.dropLast_append_getLast hne).symm⟩
      generalize h.nodes.getLast hne = z at hxs
      rw [hxs] at hm hs
      rcases List.mem_append.1 hm with hm | hm
      · exact Nat.le_of_lt ((List.pairwise_append.1 hs).2.2 _ hm z (by simp))
      · simp only [List.mem_singleton] at hm; omega
    omega

section Origin
variable [DecidableEq E] {F : Folder E} {S : Sem W E} {C : Validate.Context} {h : Hugr Ops.Op Meta}
  {inputs : FoldInputs E} {Seen : Nat → List (Abs (Handle E)) → Prop}

/-- The rows that were seen at a node are extension operations' rows without bottom, and come one
after the other. -/
structure SeenOk (F : Folder E) (h : Hugr Ops.Op Meta) (Seen : Nat → List (Abs (Handle E)) → Prop) :
    Prop where
  ext : ∀ n row, Seen n row → IsExt h n
  full : ∀ n row, Seen n row → rowContainsBottom row = false
  order : ∀ n row row', Seen n row → Seen n row' →
    List.Forall₂ (Adv F) row row' ∨ List.Forall₂ (Adv F) row' row

theorem loads_unique (ht : IsTree h) (hv : Valid C h) {n c c' : Nat} (h1 : LoadsConst h n c)
    (h2 : LoadsConst h n c') : h.live n = true ∧ c = c' := by
  obtain ⟨t, l, hop, hl, rfl, hp, rfl⟩ := h1
  obtain ⟨_, l', _, hl', hd', hp', rfl⟩ := h2
  have hlive := (link_live ht hv hl).2
  refine ⟨hlive, ?_⟩
  have hk : ((h.ops l.dst).ports .incoming)[0]? = some (.const t) := by rw [hop]; rfl
  have hdeg := hv.inDegree l.dst 0 _ hlive hk
  simp only [InDegreeOk] at hdeg
  obtain ⟨x, hx⟩ := List.length_eq_one_iff.1 hdeg
  have m1 : l ∈ linksTo h l.dst 0 := by simp [linksTo, hl, hp]
  have m2 : l' ∈ linksTo h l.dst 0 := by simp [linksTo, hl', hp', hd']
  rw [hx, List.mem_singleton] at m1 m2
  rw [m1, m2]

theorem origin_fun (ht : IsTree h) (hv : Valid C h) (hF : FolderSound F S)
    (hin : InputsAgree F inputs) (hseen : SeenOk F h Seen) {n : Nat} {f : List Nat} {e e' : E}
    (h1 : Origin F h inputs Seen n f e) (h2 : Origin F h inputs Seen n f e') : e = e' := by
  have hfresh := freshNode_live ht
  cases h1 with
  | @load _ c path _ l1 l2 l3 =>
    generalize hq : path.reverse = q at h2
    cases h2 with
    | @load _ c' path' _ m1 m2 m3 =>
      have : path = path' := List.reverse_injective hq
      subst this
      obtain ⟨_, rfl⟩ := loads_unique ht hv l1 m1
      exact leafAt_fun l2 m2
    | input m1 m2 m3 m4 =>
      have := (loads_unique ht hv l1 l1).1
      rw [hfresh] at this; simp at this
    | fold m1 m2 m3 m4 =>
      obtain ⟨_, _, _, _, _, hop⟩ := hseen.ext _ _ m1
      obtain ⟨_, _, hop', _⟩ := l1
      rw [hop] at hop'; simp at hop'
  | @input x p c path _ l1 l2 l3 l4 =>
    generalize hn : freshNode h = m at h2
    generalize hq : p :: path.reverse = q at h2
    cases h2 with
    | load m1 m2 m3 =>
      have := (loads_unique ht hv m1 m1).1
      rw [← hn, hfresh] at this; simp at this
    | @input y p' c' path' _ m1 m2 m3 m4 =>
      simp only [List.cons.injEq] at hq
      obtain ⟨rfl, hq⟩ := hq
      have : path = path' := List.reverse_injective hq
      subst this
      exact hin x l1 y m1 p c c' l2 m2 path e e' l3 m3 l4 m4
    | fold m1 m2 m3 m4 =>
      have := (hseen.ext _ _ m1).1
      rw [← hn, hfresh] at this; simp at this
  | @fold _ p row c path _ l1 l2 l3 l4 =>
    generalize hq : p :: path.reverse = q at h2
    cases h2 with
    | load m1 m2 m3 =>
      obtain ⟨_, _, _, _, _, hop⟩ := hseen.ext _ _ l1
      obtain ⟨_, _, hop', _⟩ := m1
      rw [hop] at hop'; simp at hop'
    | input m1 m2 m3 m4 =>
      have := (hseen.ext _ _ l1).1
      rw [hfresh] at this; simp at this
    | @fold _ p' row' c' path' _ m1 m2 m3 m4 =>
      simp only [List.cons.injEq] at hq
      obtain ⟨rfl, hq⟩ := hq
      have : path = path' := List.reverse_injective hq
      subst this
      have hc : c.1 = c'.1 := by
        rcases hseen.order n row row' l1 m1 with hadv | hadv
        · exact (hF.consistent n _ _ (knownIns_sublist F hadv (hseen.full _ _ l1) 0 _) p c' c m2 l2).symm
        · exact hF.consistent n _ _ (knownIns_sublist F hadv (hseen.full _ _ m1) 0 _) p c c' l2 m2
      rw [← hc] at m3
      exact leafAt_fun l3 m3

/-! ## What handles stand for -/

/-- The leaves that a handle describes. -/
def handleDesc (F : Folder E) (h : Hugr Ops.Op Meta) (inputs : FoldInputs E)
    (Seen : Nat → List (Abs (Handle E)) → Prop) (S : Sem W E) (v : Handle E) (w : W) : Prop :=
  match v.key with
  | .inl e => w = S.leaf e
  | .inr (n, f) => ∃ e, Origin F h inputs Seen n f e ∧ w = S.leaf e

/-- The handles that are made. -/
def handleGood (F : Folder E) (h : Hugr Ops.Op Meta) (inputs : FoldInputs E)
    (Seen : Nat → List (Abs (Handle E)) → Prop) : Handle E → Prop
  | .hashable _ => True
  | .unhashable n f e => Origin F h inputs Seen n f e

/-- Handles are the same if their keys are. -/
def handleLe (a b : Handle E) : Prop := a.key = b.key

theorem handle_laws : AbsLaws (Handle E) handleLe := by
  refine ⟨fun _ => rfl, fun _ _ _ h1 h2 => h1.trans h2, ?_, ?_, ?_, ?_⟩
  · intro a b c f hj
    simp only [AbsVal.tryJoin] at hj
    split at hj
    · rename_i hk
      simp only [Option.some.injEq, Prod.mk.injEq] at hj
      obtain ⟨rfl, rfl⟩ := hj
      exact ⟨rfl, hk.symm, fun d h1 _ => h1, by simp⟩
    · simp at hj
  · intro a b hj
    simp only [AbsVal.tryJoin] at hj
    split at hj
    · simp at hj
    · rename_i hk
      rintro ⟨d, h1, h2⟩
      exact hk (h1.trans h2.symm)
  · intro a b c f hj
    simp only [AbsVal.tryMeet] at hj
    split at hj
    · rename_i hk
      simp only [Option.some.injEq, Prod.mk.injEq] at hj
      obtain ⟨rfl, rfl⟩ := hj
      exact ⟨rfl, hk, fun d h1 _ => h1, by simp⟩
    · simp at hj
  · intro a b hj
    simp only [AbsVal.tryMeet] at hj
    split at hj
    · simp at hj
    · rename_i hk
      rintro ⟨d, h1, h2⟩
      exact hk (h1.symm.trans h2)

theorem handle_mono (a b : Handle E) (w : W) (hle : handleLe a b)
    (hd : handleDesc F h inputs Seen S a w) : handleDesc F h inputs Seen S b w := by
  unfold handleDesc at hd ⊢
  rw [← show a.key = b.key from hle]; exact hd

/-- A new handle stands for its leaf. -/
theorem handleOf_ok {n : Nat} {path : List Nat} {e : E}
    (ho : F.hashable e = false → Origin F h inputs Seen n path.reverse e) :
    handleGood F h inputs Seen (handleOf F n path e) ∧
    handleDesc F h inputs Seen S (handleOf F n path e) (S.leaf e) := by
  unfold handleOf
  cases hh : F.hashable e with
  | true => exact ⟨trivial, rfl⟩
  | false => exact ⟨ho hh, e, ho hh, rfl⟩

theorem foldContext_wf (F : Folder E) (h : Hugr Ops.Op Meta) : ContextWF (foldContext F h) := by
  intro n ins p _
  simp only [foldContext, foldInterp]
  split
  · exact partialFromConst_wf ..
  · trivial

section Concrete
variable (hfun : ∀ n f e e', Origin F h inputs Seen n f e → Origin F h inputs Seen n f e' → e = e')
include hfun

/-- What is concrete is the value. -/
theorem concrete_value (a : Abs (Handle E)) : ∀ t c, tryIntoConcrete (toValue F) a t = .ok c →
    AllLeaves (handleGood F h inputs Seen) a → ∀ v : Val W,
    Describes (handleDesc F h inputs Seen S) a v → v = S.value c.1 := by
  induction a using PV.induct with
  | hbot => intro t c hc; simp [tryIntoConcrete] at hc
  | htop => intro t c hc; simp [tryIntoConcrete] at hc
  | hfunc n x => intro t c hc; simp [tryIntoConcrete, toValue] at hc
  | hval x =>
    intro t c hc hg v hd
    simp only [tryIntoConcrete, toValue, Except.ok.injEq] at hc
    subst hc
    simp only [Describes] at hd
    obtain ⟨w, rfl, hd⟩ := hd
    simp only [Sem.value, Conc.val.injEq]
    cases x with
    | hashable e => exact hd
    | unhashable n f e =>
      obtain ⟨e', ho, rfl⟩ := hd
      rw [hfun n f e e' hg ho]; rfl
  | hsum rows ih =>
    intro t c hc hg v hd
    simp only [Describes] at hd
    obtain ⟨tag, xs, rfl, hd⟩ := hd
    rw [describesRows_iff] at hd
    obtain ⟨row, hm, hf⟩ := hd
    rw [allLeaves_psum_iff] at hg
    simp only [tryIntoConcrete] at hc
    cases rows with
    | nil => simp at hm
    | cons e rows =>
      obtain ⟨k, r⟩ := e
      simp only [tryIntoSum] at hc
      split at hc
      · rename_i hemp
        have : rows = [] := by simpa using hemp
        subst this
        simp only [List.mem_singleton, Prod.mk.injEq] at hm
        obtain ⟨rfl, rfl⟩ := hm
        split at hc
        · rename_i ts hts
          split at hc
          · rename_i hlen
            cases hcs : tryIntoRow (toValue F) row ts with
            | error e => rw [hcs] at hc; simp at hc
            | ok cs =>
              rw [hcs] at hc
              simp only [toValue] at hc
              split at hc
              · rename_i d hd
                simp only [Except.ok.injEq] at hc
                subst hc
                split at hd
                · simp only [Option.some.injEq] at hd
                  subst hd
                  simp only [Sem.value, Conc.sum.injEq, true_and]
                  have h1 := ih tag row (by simp)
                  have h2 := hg tag row (by simp)
                  clear ih hg hts hemp
                  rename_i hchk
                  clear hchk
                  induction hf generalizing ts cs with
                  | nil =>
                    cases ts with
                    | nil =>
                      simp only [tryIntoRow, Except.ok.injEq] at hcs
                      subst hcs; rfl
                    | cons => simp at hlen
                  | @cons x y row xs hx _ ihr =>
                    cases ts with
                    | nil => simp at hlen
                    | cons t' ts =>
                      simp only [tryIntoRow] at hcs
                      split at hcs
                      · rename_i c1 hc1
                        split at hcs
                        · rename_i cs1 hcs1
                          simp only [Except.ok.injEq] at hcs
                          subst hcs
                          simp only [List.map_cons, Sem.values, List.cons.injEq]
                          exact ⟨h1 x (by simp) t' c1 hc1 (h2 x (by simp)) y hx,
                            ihr ts (by simpa using hlen) cs1 hcs1 (fun z hz => h1 z (by simp [hz]))
                              (fun z hz => h2 z (by simp [hz]))⟩
                        · simp at hcs
                      · simp at hcs
                · simp at hd
              · simp at hc
          · simp at hc
        · simp at hc
      · simp at hc

theorem mem_of_lastFor {p : Nat} {outs : List (Nat × TVal E)} {c : TVal E}
    (hl : lastFor p outs = some c) : (p, c) ∈ outs := by
  unfold lastFor at hl
  obtain ⟨a, b, hab, _⟩ := List.lookup_eq_some_iff.1 hl
  rw [← List.mem_reverse, hab]; simp

/-- The context behaves as the semantics says. -/
theorem fold_faithful (hF : FolderSound F S) : FaithfulOn Seen (handleDesc F h inputs Seen S)
    (handleGood F h inputs Seen) h (foldContext F h) S := by
  have hout : ∀ n abs p c, Seen n abs →
      lastFor p (F.fold n (knownIns F 0 (sigIns (h.ops n)) abs)) = some c →
      ∀ q e v, LeafAt c.1 q e → (foldContext F h).load n (q ++ [p]) e = some v →
      handleGood F h inputs Seen v ∧ handleDesc F h inputs Seen S v (S.leaf e) := by
    intro n abs p c hs hl q e v hle hv
    simp only [foldContext, foldLoad, Option.some.injEq] at hv
    subst hv
    refine handleOf_ok fun hh => ?_
    have := Origin.fold (inputs := inputs) hs (mem_of_lastFor hfun hl) hle hh
    simpa using this
  refine ⟨hF.constant, ?_, ?_, ?_, ?_⟩
  · intro n c path e v hload hle hv
    simp only [foldContext, foldLoad, Option.some.injEq] at hv
    subst hv
    exact handleOf_ok fun hh => .load hload hle hh
  · intro n abs ins outs hs hg hd hext p v hp
    simp only [foldContext, foldInterp]
    split
    · rename_i c hc
      have hval : v = S.value c.1 := by
        refine hF.fold n _ ins outs hext (fun e he => ?_) (p, c) (mem_of_lastFor hfun hc) v hp
        obtain ⟨k, a, t, hk, ha, ht, hcon⟩ := mem_knownIns F he
        rw [hk, Nat.zero_add]
        have hlen := hd.length_eq
        have hlt : k < ins.length := by
          rw [← hlen]; exact (List.getElem?_eq_some_iff.1 ha).1
        rw [List.getElem?_eq_getElem hlt]
        have hdk : Describes (handleDesc F h inputs Seen S) a ins[k] := by
          obtain ⟨hka, rfl⟩ := List.getElem?_eq_some_iff.1 ha
          exact (List.forall₂_iff_get.1 hd).2 k hka hlt
        rw [concrete_value hfun a t e.2 hcon (hg a (List.mem_of_getElem? ha)) _ hdk]
      subst hval
      exact const_described (K := foldContext F h) n [p] c.1
        fun q e v hle hv => (hout n abs p c hs hc q e v hle hv).2
    · simp [Describes]
  · intro a b c x ha _ hj
    simp only [AbsVal.tryJoin] at hj
    split at hj
    · simp only [Option.some.injEq, Prod.mk.injEq] at hj
      rw [← hj.1]; exact ha
    · simp at hj
  · intro n abs p hs hg
    simp only [foldContext, foldInterp]
    split
    · rename_i c hc
      exact const_good (K := foldContext F h) [p] c.1
        fun q e v hle hv => (hout n abs p c hs hc q e v hle hv).1
    · trivial

end Concrete

/-- The values of the inputs that are given. -/
theorem input_ok {x : Nat × List (Nat × CVal E)} (hx : x ∈ inputs) {p : Nat} {c : CVal E}
    (hp : (p, c) ∈ x.2) :
    AllLeaves (handleGood F h inputs Seen) (partialFromConst (foldLoad F) (freshNode h) [p] c) ∧
    Describes (handleDesc F h inputs Seen S) (partialFromConst (foldLoad F) (freshNode h) [p] c)
      (S.value c) := by
  have hq : ∀ q e v, LeafAt c q e → foldLoad F (freshNode h) (q ++ [p]) e = some v →
      handleGood F h inputs Seen v ∧ handleDesc F h inputs Seen S v (S.leaf e) := by
    intro q e v hle hv
    simp only [foldLoad, Option.some.injEq] at hv
    subst hv
    refine handleOf_ok fun hh => ?_
    simpa using Origin.input (h := h) (Seen := Seen) hx hp hle hh
  exact ⟨const_good (K := foldContext F h) [p] c fun q e v h1 h2 => (hq q e v h1 h2).1,
    const_described (K := foldContext F h) (freshNode h) [p] c fun q e v h1 h2 => (hq q e v h1 h2).2⟩

theorem foldStarts_starts {r : Nat} {args : List (Val W)} (hs : FoldStarts h S inputs r args) :
    Starts h (handleDesc F h inputs Seen S) (foldCalls F h inputs) [] r args := by
  obtain ⟨hl, hlen, hor⟩ := hs
  rcases hor with ⟨rfl, rfl⟩ | ⟨vals, hm, hv⟩
  · refine .inr ⟨.inr rfl, hl, hlen, [], by simp, ?_⟩
    intro i v _ pre post pv hpre
    simp at hpre
  · refine .inl ⟨hl, hlen, _, List.mem_map.2 ⟨_, hm, rfl⟩, ?_⟩
    intro i v hi pre post pv hpre _
    have hmem : (i, pv) ∈ vals.map fun pv =>
        (pv.1, partialFromConst (foldLoad F) (freshNode h) [pv.1] pv.2) := by rw [hpre]; simp
    obtain ⟨⟨p, c⟩, hpc, heq⟩ := List.mem_map.1 hmem
    simp only [Prod.mk.injEq] at heq
    obtain ⟨rfl, rfl⟩ := heq
    rw [hv p c hpc v hi]
    exact (input_ok hm hpc).2

end Origin

theorem occurs_mono {h : Hugr Ops.Op Meta} {S : Sem W E} {R R' : Nat → List (Val W) → Prop}
    (hR : ∀ r args, R r args → R' r args) {r : Nat} {args : List (Val W)} {a : Activation W}
    (ho : Occurs h S R r args a) : Occurs h S R' r args a := by
  induction ho with
  | region h1 h2 h3 => exact .region (hR _ _ h1) h2 h3
  | node h1 h2 h3 => exact .node (hR _ _ h1) h2 h3
  | step _ h2 ih => exact .step ih h2
  | call _ h2 h3 h4 h5 h6 ih => exact .call ih h2 h3 h4 h5 h6
  | ret _ h2 h3 h4 h5 h6 _ h8 h9 ih1 ih2 => exact .ret ih1 h2 h3 h4 h5 h6 ih2 h8 h9

/-! ## The wires that are broken -/

section Breaks
variable {F : Folder E} {h : Hugr Ops.Op Meta} {s : AState (Handle E)}

theorem mem_breaksOf {ports : List (Nat × Nat)} {bs : List (Break E)}
    (hb : breaksOf F h s ports = some bs) : ∀ b ∈ bs, (b.node, b.port) ∈ ports ∧
      b.node ≠ h.entrypoint ∧ isValueIn (h.ops b.node) b.port = true ∧
      ∃ src q, h.linkedOutputs b.node b.port = [(src, q)] ∧ isLoadConstant (h.ops src) = false ∧
        some src ≠ rootInput h ∧ readConcrete F h s src q = some b.val := by
  induction ports generalizing bs with
  | nil => simp only [breaksOf, Option.some.injEq] at hb; subst hb; simp
  | cons np rest ih =>
    obtain ⟨n, p⟩ := np
    simp only [breaksOf] at hb
    split at hb
    · rename_i hc
      split at hb
      · rename_i src q hlo
        split at hb
        · rename_i bs' hbs
          simp only [Option.some.injEq] at hb
          subst hb
          intro b hb
          rcases List.mem_append.1 hb with hb | hb
          · unfold breakOf at hb
            split at hb
            · rename_i hc2
              split at hb
              · rename_i c hr
                simp only [List.mem_singleton] at hb
                subst hb
                exact ⟨by simp, hc.1, hc.2, src, q, hlo, hc2.1, hc2.2, hr⟩
              · simp at hb
            · simp at hb
          · obtain ⟨h1, h2⟩ := ih hbs b hb
            exact ⟨List.mem_cons_of_mem _ h1, h2⟩
        · simp at hb
      · simp at hb
    · intro b hb'
      obtain ⟨h1, h2⟩ := ih hb b hb'
      exact ⟨List.mem_cons_of_mem _ h1, h2⟩

theorem breaksOf_sublist {ports : List (Nat × Nat)} {bs : List (Break E)}
    (hb : breaksOf F h s ports = some bs) : (bs.map fun b => (b.node, b.port)).Sublist ports := by
  induction ports generalizing bs with
  | nil => simp only [breaksOf, Option.some.injEq] at hb; subst hb; simp
  | cons np rest ih =>
    obtain ⟨n, p⟩ := np
    simp only [breaksOf] at hb
    split at hb
    · split at hb
      · split at hb
        · rename_i bs' hbs
          simp only [Option.some.injEq] at hb
          subst hb
          unfold breakOf
          split
          · split
            · simpa using ih hbs
            · exact (ih hbs).cons _
          · exact (ih hbs).cons _
        · simp at hb
      · simp at hb
    · exact (ih hb).cons _

theorem entryPorts_nodup (ht : IsTree h) : (entryPorts h).Nodup := by
  have hd := (descendants_enumerates ht ht.entry_live).nodup
  unfold entryPorts
  rw [List.nodup_flatMap]
  refine ⟨fun n _ => ?_, hd.imp fun {a b} hab => ?_⟩
  · exact (List.nodup_range).map fun a b hab => by simpa using hab
  · intro x h1 h2
    simp only [List.mem_map] at h1 h2
    obtain ⟨_, _, rfl⟩ := h1
    obtain ⟨_, _, h2⟩ := h2
    simp only [Prod.mk.injEq] at h2
    exact hab h2.1.symm

theorem valueIn_lt {op : Ops.Op} (htag : op.tagOk = true) {p : Nat}
    (hi : p < (op.ports .incoming).length) (hp : isValueIn op p = true) :
    p < numIns op := by
  unfold isValueIn at hp
  rw [C10_port_kind op .incoming htag p hi] at hp
  split at hp
  · rename_i t heq
    simp only [Run.ok.injEq] at heq
    obtain ⟨s, hs, hports, ho⟩ := ports_eq op .incoming htag
    have hl : (sigIns op) = (sigRow (s.getD ⟨[], []⟩) .incoming) := by
      unfold sigIns; rw [hs]; cases s <;> simp [sigRow]
    rw [numIns_eq htag]
    rw [hports, ← hl] at heq
    by_contra hno
    rw [List.append_assoc, List.getElem?_append_right (by simpa using hno)] at heq
    have hm := List.mem_of_getElem? heq
    rcases List.mem_append.1 hm with hm | hm
    · have := static_isStatic op .incoming _ (by simpa using hm)
      simp [Kind.isStatic] at this
    · obtain ⟨hn, he⟩ := List.mem_replicate.1 hm
      obtain ⟨k, hk⟩ := Option.isSome_iff_exists.1 (ho hn)
      rw [hk] at he
      have := other_isOther op .incoming k hk
      simp only [Option.getD_some] at he
      rw [← he] at this
      simp [Kind.isOther] at this
  · simp at hp

end Breaks

end Verif.Dataflow
