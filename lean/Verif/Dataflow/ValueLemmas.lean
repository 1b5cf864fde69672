import Mathlib.Data.List.Forall2
import Verif.Dataflow.ValueSpec

/-! Lemmas about the model of abstract values. -/
namespace Verif

variable {K U : Type} [LinearOrder K]

/-- Sorted maps with the same lookups are equal. -/
theorem bm_ext {m m' : List (K × U)} (h : BmSorted m) (h' : BmSorted m')
    (he : ∀ k, bmGet m k = bmGet m' k) : m = m' := by
  induction m generalizing m' with
  | nil =>
    cases m' with
    | nil => rfl
    | cons e m' => have := he e.1; simp [bmGet] at this
  | cons e m ih =>
    obtain ⟨k, v⟩ := e
    cases m' with
    | nil => have := he k; simp [bmGet] at this
    | cons e' m' =>
      obtain ⟨k', v'⟩ := e'
      have hkk : k = k' := by
        by_contra hne
        rcases lt_or_gt_of_ne hne with hlt | hlt
        · have h1 := he k
          have hn : bmGet ((k', v') :: m') k = none :=
            bmGet_none_of_lt (fun e he => by
              rcases List.mem_cons.1 he with rfl | he
              · exact hlt
              · exact lt_trans hlt (h'.head_lt e he))
          rw [hn] at h1; simp [bmGet] at h1
        · have h1 := he k'
          have hn : bmGet ((k, v) :: m) k' = none :=
            bmGet_none_of_lt (fun e he => by
              rcases List.mem_cons.1 he with rfl | he
              · exact hlt
              · exact lt_trans hlt (h.head_lt e he))
          rw [hn] at h1; simp [bmGet] at h1
      subst hkk
      have hv : v = v' := by have := he k; simpa [bmGet] using this
      subst hv
      congr 1
      refine ih h.tail h'.tail (fun j => ?_)
      by_cases hj : k = j
      · subst hj
        rw [bmGet_none_of_lt h.head_lt, bmGet_none_of_lt h'.head_lt]
      · have := he j
        simpa [bmGet, hj] using this

namespace Dataflow
variable {V N A W : Type}
namespace PV

/-- Induction on abstract values, with the hypothesis for all elements of all rows. -/
theorem induct {motive : PV V N A → Prop} (hbot : motive bottom)
    (hfunc : ∀ n x, motive (func n x)) (hval : ∀ v, motive (value v))
    (hsum : ∀ rows, (∀ k row, (k, row) ∈ rows → ∀ x ∈ row, motive x) → motive (psum rows))
    (htop : motive top) (a : PV V N A) : motive a :=
  PV.rec (motive_1 := motive)
    (motive_2 := fun rows => ∀ k row, (k, row) ∈ rows → ∀ x ∈ row, motive x)
    (motive_3 := fun e => ∀ x ∈ e.2, motive x)
    (motive_4 := fun row => ∀ x ∈ row, motive x)
    hbot hfunc hval (fun rows ih => hsum rows ih) htop
    (fun _ _ h => by simp at h)
    (fun e rows he hr k row h => by
      rcases List.mem_cons.1 h with h | h
      · subst h; exact he
      · exact hr k row h)
    (fun _ _ h => h)
    (fun _ h => by simp at h)
    (fun x xs hx hxs y hy => by
      rcases List.mem_cons.1 hy with h | h
      · subst h; exact hx
      · exact hxs y h) a

section Order
variable (vle : V → V → Prop)

theorem leRow_iff (xs ys : List (PV V N A)) : LeRow vle xs ys ↔ List.Forall₂ (Le vle) xs ys := by
  induction xs generalizing ys with
  | nil => simp [LeRow]
  | cons x xs ih =>
    cases ys with
    | nil => simp [LeRow]
    | cons y ys => simp [LeRow, ih]

theorem leRows_iff (r s : List (Nat × List (PV V N A))) : LeRows vle r s ↔
    ∀ k row, (k, row) ∈ r → ∃ row', bmGet s k = some row' ∧ List.Forall₂ (Le vle) row row' := by
  induction r with
  | nil => simp [LeRows]
  | cons e r ih =>
    obtain ⟨k, row⟩ := e
    simp only [LeRows, ih, leRow_iff, List.mem_cons, Prod.mk.injEq]
    constructor
    · rintro ⟨h1, h2⟩ k' row' (⟨rfl, rfl⟩ | h)
      · exact h1
      · exact h2 k' row' h
    · intro h
      exact ⟨h k row (Or.inl ⟨rfl, rfl⟩), fun k' row' hm => h k' row' (Or.inr hm)⟩

theorem le_psum_iff (r s : List (Nat × List (PV V N A))) : Le vle (psum r) (psum s) ↔
    ∀ k row, (k, row) ∈ r → ∃ row', bmGet s k = some row' ∧ List.Forall₂ (Le vle) row row' := by
  simp [Le, leRows_iff]

theorem le_top (a : PV V N A) : Le vle a top := by
  cases a <;> simp [Le]

theorem top_le {b : PV V N A} (h : Le vle top b) : b = top := by simpa [Le] using h

theorem le_bottom {a : PV V N A} (h : Le vle a bottom) : a = bottom := by
  cases a <;> simp [Le] at h ⊢

end Order

theorem wfRow_iff (xs : List (PV V N A)) : WFRow xs ↔ ∀ x ∈ xs, WF x := by
  induction xs with
  | nil => simp [WFRow]
  | cons x xs ih => simp [WFRow, ih]

theorem wfRows_iff (r : List (Nat × List (PV V N A))) :
    WFRows r ↔ ∀ k row, (k, row) ∈ r → ∀ x ∈ row, WF x := by
  induction r with
  | nil => simp [WFRows]
  | cons e r ih =>
    obtain ⟨k, row⟩ := e
    simp only [WFRows, ih, wfRow_iff, List.mem_cons, Prod.mk.injEq]
    constructor
    · rintro ⟨h1, h2⟩ k' row' (⟨rfl, rfl⟩ | h)
      · exact h1
      · exact h2 k' row' h
    · intro h
      exact ⟨h k row (Or.inl ⟨rfl, rfl⟩), fun k' row' hm => h k' row' (Or.inr hm)⟩

theorem wf_psum_iff (r : List (Nat × List (PV V N A))) :
    WF (psum r) ↔ r ≠ [] ∧ BmSorted r ∧ ∀ k row, (k, row) ∈ r → ∀ x ∈ row, WF x := by
  simp [WF, wfRows_iff]

theorem argsByRow_iff (φ : N → A) (xs : List (PV V N A)) :
    ArgsByRow φ xs ↔ ∀ x ∈ xs, ArgsBy φ x := by
  induction xs with
  | nil => simp [ArgsByRow]
  | cons x xs ih => simp [ArgsByRow, ih]

theorem argsBy_psum_iff (φ : N → A) (r : List (Nat × List (PV V N A))) :
    ArgsBy φ (psum r) ↔ ∀ k row, (k, row) ∈ r → ∀ x ∈ row, ArgsBy φ x := by
  simp only [ArgsBy]
  induction r with
  | nil => simp [ArgsByRows]
  | cons e r ih =>
    obtain ⟨k, row⟩ := e
    simp only [ArgsByRows, ih, argsByRow_iff, List.mem_cons, Prod.mk.injEq]
    constructor
    · rintro ⟨h1, h2⟩ k' row' (⟨rfl, rfl⟩ | h)
      · exact h1
      · exact h2 k' row' h
    · intro h
      exact ⟨h k row (Or.inl ⟨rfl, rfl⟩), fun k' row' hm => h k' row' (Or.inr hm)⟩

theorem fitsRow_iff (xs : List (PV V N A)) (ts : List Shape) :
    FitsRow xs ts ↔ List.Forall₂ Fits xs ts := by
  induction xs generalizing ts with
  | nil => simp [FitsRow]
  | cons x xs ih =>
    cases ts with
    | nil => simp [FitsRow]
    | cons t ts => simp [FitsRow, ih]

theorem fitsRows_iff (r : List (Nat × List (PV V N A))) (vs : List (List Shape)) :
    FitsRows r vs ↔ ∀ k row, (k, row) ∈ r → ∃ ts, vs[k]? = some ts ∧ List.Forall₂ Fits row ts := by
  induction r with
  | nil => simp [FitsRows]
  | cons e r ih =>
    obtain ⟨k, row⟩ := e
    simp only [FitsRows, ih, fitsRow_iff, List.mem_cons, Prod.mk.injEq]
    constructor
    · rintro ⟨h1, h2⟩ k' row' (⟨rfl, rfl⟩ | h)
      · exact h1
      · exact h2 k' row' h
    · intro h
      exact ⟨h k row (Or.inl ⟨rfl, rfl⟩), fun k' row' hm => h k' row' (Or.inr hm)⟩

section Desc
variable (vd : V → W → Prop)

theorem describesRow_iff (ps : List (PV V N A)) (xs : List (Conc W N A)) :
    DescribesRow vd ps xs ↔ List.Forall₂ (Describes vd) ps xs := by
  induction ps generalizing xs with
  | nil => simp [DescribesRow]
  | cons x xs ih =>
    cases xs with
    | nil => simp [DescribesRow]
    | cons t ts => simp [DescribesRow, ih]

theorem describesRows_iff (r : List (Nat × List (PV V N A))) (tag : Nat) (xs : List (Conc W N A)) :
    DescribesRows vd r tag xs ↔ ∃ row, (tag, row) ∈ r ∧ List.Forall₂ (Describes vd) row xs := by
  induction r with
  | nil => simp [DescribesRows]
  | cons e r ih =>
    obtain ⟨k, row⟩ := e
    simp only [DescribesRows, ih, describesRow_iff, List.mem_cons, Prod.mk.injEq]
    constructor
    · rintro (⟨rfl, h⟩ | ⟨row', hm, h⟩)
      · exact ⟨row, Or.inl ⟨rfl, rfl⟩, h⟩
      · exact ⟨row', Or.inr hm, h⟩
    · rintro ⟨row', ⟨rfl, rfl⟩ | hm, h⟩
      · exact Or.inl ⟨rfl, h⟩
      · exact Or.inr ⟨row', hm, h⟩

end Desc

section OrderLaws
variable [AbsVal V] {vle : V → V → Prop} (L : AbsLaws V vle)
include L

theorem le_refl (a : PV V N A) (ha : WF a) : Le vle a a := by
  induction a using induct with
  | hbot => trivial
  | hfunc => simp [Le]
  | hval v => simp [Le, L.refl]
  | htop => simp [Le]
  | hsum rows ih =>
    rw [wf_psum_iff] at ha
    rw [le_psum_iff]
    intro k row hm
    refine ⟨row, bmGet_of_mem ha.2.1 hm, ?_⟩
    exact List.forall₂_same.2 (fun x hx => ih k row hm x hx (ha.2.2 k row hm x hx))

theorem le_trans (a b c : PV V N A) (h1 : Le vle a b) (h2 : Le vle b c) : Le vle a c := by
  induction a using induct generalizing b c with
  | hbot => trivial
  | hfunc n x =>
    simp only [Le] at h1
    rcases h1 with rfl | rfl
    · rw [top_le vle h2]; exact le_top vle _
    · exact h2
  | hval v =>
    simp only [Le] at h1
    rcases h1 with rfl | ⟨w, rfl, hw⟩
    · rw [top_le vle h2]; exact le_top vle _
    · simp only [Le] at h2 ⊢
      rcases h2 with rfl | ⟨w', rfl, hw'⟩
      · exact Or.inl rfl
      · exact Or.inr ⟨w', rfl, L.trans _ _ _ hw hw'⟩
  | htop => rw [top_le vle h1] at h2; exact h2
  | hsum rows ih =>
    cases b with
    | top => rw [top_le vle h2]; exact le_top vle _
    | bottom => simp [Le] at h1
    | func => simp [Le] at h1
    | value => simp [Le] at h1
    | psum s =>
      cases c with
      | top => exact le_top vle _
      | bottom => simp [Le] at h2
      | func => simp [Le] at h2
      | value => simp [Le] at h2
      | psum t =>
        rw [le_psum_iff] at *
        intro k row hm
        obtain ⟨row', hg, hf⟩ := h1 k row hm
        obtain ⟨row'', hg', hf'⟩ := h2 k row' (bmGet_mem hg)
        refine ⟨row'', hg', ?_⟩
        have hx : ∀ x ∈ row, ∀ b c, Le vle x b → Le vle b c → Le vle x c :=
          fun x hx b c h h' => ih k row hm x hx b c h h'
        clear ih hm hg hg' h1 h2
        induction hf generalizing row'' with
        | nil => exact hf'
        | cons h hs ih2 =>
          cases hf' with
          | cons h' hs' =>
            exact .cons (hx _ (List.mem_cons_self ..) _ _ h h')
              (ih2 _ hs' (fun x hm => hx x (List.mem_cons_of_mem _ hm)))

omit L in
theorem le_antisymm (L : LawfulAbs V vle) (a b : PV V N A) (ha : WF a) (hb : WF b) (h1 : Le vle a b) (h2 : Le vle b a) :
    a = b := by
  induction a using induct generalizing b with
  | hbot => exact (le_bottom vle h2).symm
  | hfunc n x =>
    simp only [Le] at h1
    rcases h1 with rfl | rfl
    · exact top_le vle h2
    · rfl
  | hval v =>
    simp only [Le] at h1
    rcases h1 with rfl | ⟨w, rfl, hw⟩
    · exact top_le vle h2
    · simp only [Le, reduceCtorEq, false_or, value.injEq, exists_eq_left'] at h2
      rw [L.antisymm _ _ hw h2]
  | htop => exact (top_le vle h1).symm
  | hsum rows ih =>
    cases b with
    | top => exact top_le vle h2
    | bottom => simp [Le] at h1
    | func => simp [Le] at h1
    | value => simp [Le] at h1
    | psum s =>
      rw [wf_psum_iff] at ha hb
      rw [le_psum_iff] at h1 h2
      congr 1
      refine bm_ext ha.2.1 hb.2.1 (fun k => ?_)
      cases hk : bmGet rows k with
      | none =>
        cases hk' : bmGet s k with
        | none => rfl
        | some v =>
          obtain ⟨_, h, _⟩ := h2 k v (bmGet_mem hk')
          rw [hk] at h; simp at h
      | some row =>
        have hm := bmGet_mem hk
        obtain ⟨row', hg, hf⟩ := h1 k row hm
        obtain ⟨row'', hg', hf'⟩ := h2 k row' (bmGet_mem hg)
        rw [hk] at hg'; simp only [Option.some.injEq] at hg'; subst hg'
        rw [hg]; congr 1
        have hx := ih k row hm
        have hw := ha.2.2 k row hm
        have hw' := hb.2.2 k row' (bmGet_mem hg)
        clear ih hm hg hk h1 h2
        induction hf with
        | nil => rfl
        | cons h hs ih2 =>
          cases hf' with
          | cons h' hs' =>
            rw [hx _ (List.mem_cons_self ..) _ (hw _ (List.mem_cons_self ..))
              (hw' _ (List.mem_cons_self ..)) h h']
            congr 1
            exact ih2 hs' (fun x hm => hx x (List.mem_cons_of_mem _ hm))
              (fun x hm => hw x (List.mem_cons_of_mem _ hm))
              (fun x hm => hw' x (List.mem_cons_of_mem _ hm))

end OrderLaws

section Loops
variable [AbsVal V] [DecidableEq N]

theorem joinRow_fst (row v : List (PV V N A)) (h : row.length = v.length) :
    (joinRow row v).1 = List.zipWith (fun a b => (join a b).1) row v := by
  induction v generalizing row with
  | nil => cases row with
    | nil => simp [joinRow]
    | cons => simp at h
  | cons y v ih => cases row with
    | nil => simp at h
    | cons x row =>
      simp only [List.length_cons, Nat.add_right_cancel_iff] at h
      simp [joinRow, ih row h]

theorem joinRow_snd (row v : List (PV V N A)) :
    (joinRow row v).2 = (List.zipWith (fun a b => (join a b).2) row v).any id := by
  induction v generalizing row with
  | nil => cases row <;> simp [joinRow]
  | cons y v ih => cases row with
    | nil => simp [joinRow]
    | cons x row => simp [joinRow, ih row]

theorem meetRow_fst (row v : List (PV V N A)) (h : row.length = v.length) :
    (meetRow row v).1 = List.zipWith (fun a b => (meet a b).1) row v := by
  induction v generalizing row with
  | nil => cases row with
    | nil => simp [meetRow]
    | cons => simp at h
  | cons y v ih => cases row with
    | nil => simp at h
    | cons x row =>
      simp only [List.length_cons, Nat.add_right_cancel_iff] at h
      simp [meetRow, ih row h]

theorem meetRow_snd (row v : List (PV V N A)) :
    (meetRow row v).2 = (List.zipWith (fun a b => (meet a b).2) row v).any id := by
  induction v generalizing row with
  | nil => cases row <;> simp [meetRow]
  | cons y v ih => cases row with
    | nil => simp [meetRow]
    | cons x row => simp [meetRow, ih row]

theorem joinRows_sorted (self other : List (Nat × List (PV V N A))) (h : BmSorted self) :
    BmSorted (joinRows self other).1 := by
  induction other generalizing self with
  | nil => simpa [joinRows] using h
  | cons e other ih =>
    obtain ⟨k, v⟩ := e
    simp only [joinRows]
    cases bmGet self k with
    | none => exact ih _ (bmInsert_sorted h k v)
    | some row => exact ih _ (bmInsert_sorted h k _)

/-- The entries of a joined sum. -/
theorem joinRows_get (self other : List (Nat × List (PV V N A))) (h : BmSorted self)
    (ho : BmSorted other) (k : Nat) : bmGet (joinRows self other).1 k =
      match bmGet self k, bmGet other k with
      | some row, some v => some (joinRow row v).1
      | some row, none => some row
      | none, o => o := by
  induction other generalizing self with
  | nil => simp only [joinRows, bmGet]; cases bmGet self k <;> rfl
  | cons e other ih =>
    obtain ⟨k', v⟩ := e
    have hno : k' = k → bmGet other k = none := fun hk =>
      bmGet_none_of_lt (fun e he => hk ▸ ho.head_lt e he)
    simp only [joinRows]
    cases hg : bmGet self k' with
    | none =>
      simp only []
      rw [ih _ (bmInsert_sorted h k' v) ho.tail, bmGet_insert h]
      by_cases hk : k' = k
      · subst hk
        simp [hg, bmGet, hno rfl]
      · simp [hk, bmGet]
    | some row =>
      simp only []
      rw [ih _ (bmInsert_sorted h k' _) ho.tail, bmGet_insert h]
      by_cases hk : k' = k
      · subst hk
        simp [hg, bmGet, hno rfl]
      · simp [hk, bmGet]

theorem joinRows_flag (self other : List (Nat × List (PV V N A))) (h : BmSorted self)
    (ho : BmSorted other) : (joinRows self other).2 = true ↔
      ∃ k v, (k, v) ∈ other ∧ (bmGet self k = none ∨
        ∃ row, bmGet self k = some row ∧ (joinRow row v).2 = true) := by
  induction other generalizing self with
  | nil => simp [joinRows]
  | cons e other ih =>
    obtain ⟨k', v⟩ := e
    simp only [joinRows]
    cases hg : bmGet self k' with
    | none =>
      simp only [true_iff]
      exact ⟨k', v, List.mem_cons_self .., Or.inl hg⟩
    | some row =>
      simp only [Bool.or_eq_true]
      rw [ih _ (bmInsert_sorted h k' _) ho.tail]
      have hne : ∀ j w, (j, w) ∈ other → bmGet (bmInsert self k' (joinRow row v).1) j = bmGet self j := by
        intro j w hm
        rw [bmGet_insert h, if_neg (ne_of_lt (ho.head_lt _ hm))]
      constructor
      · rintro (hf | ⟨j, w, hm, hj⟩)
        · exact ⟨k', v, List.mem_cons_self .., Or.inr ⟨row, hg, hf⟩⟩
        · rw [hne j w hm] at hj
          exact ⟨j, w, List.mem_cons_of_mem _ hm, hj⟩
      · rintro ⟨j, w, hm, hj⟩
        rcases List.mem_cons.1 hm with hm | hm
        · simp only [Prod.mk.injEq] at hm
          obtain ⟨rfl, rfl⟩ := hm
          rw [hg] at hj
          rcases hj with hj | ⟨row', hr, hf⟩
          · simp at hj
          · simp only [Option.some.injEq] at hr; subst hr; exact Or.inl hf
        · refine Or.inr ⟨j, w, hm, ?_⟩
          rw [hne j w hm]; exact hj

theorem joinLengthsOk_iff (self other : List (Nat × List (PV V N A))) :
    joinLengthsOk self other = true ↔
      ∀ k v, (k, v) ∈ other → ∀ row, bmGet self k = some row → row.length = v.length := by
  simp only [joinLengthsOk, List.all_eq_true]
  constructor
  · intro h k v hm row hg
    have := h (k, v) hm
    simp only [hg] at this
    simpa using this
  · intro h e hm
    obtain ⟨k, v⟩ := e
    simp only
    cases hg : bmGet self k with
    | none => rfl
    | some row => simpa using h k v hm row hg

theorem meetRows_sorted (self other : List (Nat × List (PV V N A))) (h : BmSorted self) :
    BmSorted (meetRows self other).1 := by
  induction other generalizing self with
  | nil => simpa [meetRows] using h
  | cons e other ih =>
    obtain ⟨k, v⟩ := e
    simp only [meetRows]
    cases bmGet self k with
    | none => exact ih _ h
    | some row => exact ih _ (bmInsert_sorted h k _)

theorem meetRows_get (self other : List (Nat × List (PV V N A))) (h : BmSorted self)
    (ho : BmSorted other) (k : Nat) : bmGet (meetRows self other).1 k =
      match bmGet self k, bmGet other k with
      | some row, some v => some (meetRow row v).1
      | some row, none => some row
      | none, _ => none := by
  induction other generalizing self with
  | nil => simp only [meetRows, bmGet]; cases bmGet self k <;> rfl
  | cons e other ih =>
    obtain ⟨k', v⟩ := e
    have hno : k' = k → bmGet other k = none := fun hk =>
      bmGet_none_of_lt (fun e he => hk ▸ ho.head_lt e he)
    simp only [meetRows]
    cases hg : bmGet self k' with
    | none =>
      simp only []
      rw [ih _ h ho.tail]
      by_cases hk : k' = k
      · subst hk
        simp [hg, bmGet, hno rfl]
      · simp [hk, bmGet]
    | some row =>
      simp only []
      rw [ih _ (bmInsert_sorted h k' _) ho.tail, bmGet_insert h]
      by_cases hk : k' = k
      · subst hk
        simp [hg, bmGet, hno rfl]
      · simp [hk, bmGet]

theorem meetRows_flag (self other : List (Nat × List (PV V N A))) (h : BmSorted self)
    (ho : BmSorted other) : (meetRows self other).2.1 = true ↔
      ∃ k v, (k, v) ∈ other ∧ ∃ row, bmGet self k = some row ∧ (meetRow row v).2 = true := by
  induction other generalizing self with
  | nil => simp [meetRows]
  | cons e other ih =>
    obtain ⟨k', v⟩ := e
    simp only [meetRows]
    cases hg : bmGet self k' with
    | none =>
      simp only []
      rw [ih _ h ho.tail]
      constructor
      · rintro ⟨j, w, hm, hj⟩
        exact ⟨j, w, List.mem_cons_of_mem _ hm, hj⟩
      · rintro ⟨j, w, hm, row, hr, hf⟩
        rcases List.mem_cons.1 hm with hm | hm
        · simp only [Prod.mk.injEq] at hm
          obtain ⟨rfl, rfl⟩ := hm
          rw [hg] at hr; simp at hr
        · exact ⟨j, w, hm, row, hr, hf⟩
    | some row =>
      simp only [Bool.or_eq_true]
      rw [ih _ (bmInsert_sorted h k' _) ho.tail]
      have hne : ∀ j w, (j, w) ∈ other → bmGet (bmInsert self k' (meetRow row v).1) j = bmGet self j := by
        intro j w hm
        rw [bmGet_insert h, if_neg (ne_of_lt (ho.head_lt _ hm))]
      constructor
      · rintro (hf | ⟨j, w, hm, hj⟩)
        · exact ⟨k', v, List.mem_cons_self .., row, hg, hf⟩
        · rw [hne j w hm] at hj
          exact ⟨j, w, List.mem_cons_of_mem _ hm, hj⟩
      · rintro ⟨j, w, hm, hj⟩
        rcases List.mem_cons.1 hm with hm | hm
        · simp only [Prod.mk.injEq] at hm
          obtain ⟨rfl, rfl⟩ := hm
          rw [hg] at hj
          obtain ⟨row', hr, hf⟩ := hj
          simp only [Option.some.injEq] at hr; subst hr; exact Or.inl hf
        · refine Or.inr ⟨j, w, hm, ?_⟩
          rw [hne j w hm]; exact hj

theorem meetRows_missing (self other : List (Nat × List (PV V N A))) (h : BmSorted self)
    (ho : BmSorted other) (k : Nat) : k ∈ (meetRows self other).2.2 ↔
      (∃ v, (k, v) ∈ other) ∧ bmGet self k = none := by
  induction other generalizing self with
  | nil => simp [meetRows]
  | cons e other ih =>
    obtain ⟨k', v⟩ := e
    simp only [meetRows]
    cases hg : bmGet self k' with
    | none =>
      simp only [List.mem_cons]
      rw [ih _ h ho.tail]
      constructor
      · rintro (rfl | ⟨⟨w, hm⟩, hj⟩)
        · exact ⟨⟨v, Or.inl rfl⟩, hg⟩
        · exact ⟨⟨w, Or.inr hm⟩, hj⟩
      · rintro ⟨⟨w, hm | hm⟩, hj⟩
        · simp only [Prod.mk.injEq] at hm; exact Or.inl hm.1
        · exact Or.inr ⟨⟨w, hm⟩, hj⟩
    | some row =>
      simp only [List.mem_cons]
      rw [ih _ (bmInsert_sorted h k' _) ho.tail]
      constructor
      · rintro ⟨⟨w, hm⟩, hj⟩
        rw [bmGet_insert h, if_neg (ne_of_lt (ho.head_lt _ hm))] at hj
        exact ⟨⟨w, Or.inr hm⟩, hj⟩
      · rintro ⟨⟨w, hm | hm⟩, hj⟩
        · simp only [Prod.mk.injEq] at hm; rw [hm.1, hg] at hj; simp at hj
        · refine ⟨⟨w, hm⟩, ?_⟩
          rw [bmGet_insert h, if_neg (ne_of_lt (ho.head_lt _ hm))]; exact hj

theorem meetLengthsOk_iff (self other : List (Nat × List (PV V N A))) :
    meetLengthsOk self other = true ↔
      ∀ k v, (k, v) ∈ self → ∀ row, bmGet other k = some row → v.length = row.length := by
  simp only [meetLengthsOk, List.all_eq_true]
  constructor
  · intro h k v hm row hg
    have := h (k, v) hm
    simp only [hg] at this
    simpa using this
  · intro h e hm
    obtain ⟨k, v⟩ := e
    simp only
    cases hg : bmGet other k with
    | none => rfl
    | some row => simpa using h k v hm row hg

theorem keysMissing_mem (self other : List (Nat × List (PV V N A))) (k : Nat) :
    k ∈ keysMissing self other ↔ (∃ v, (k, v) ∈ self) ∧ bmGet other k = none := by
  simp only [keysMissing, List.mem_map, List.mem_filter, Option.isNone_iff_eq_none]
  constructor
  · rintro ⟨⟨k', v⟩, ⟨h1, h2⟩, rfl⟩
    exact ⟨⟨v, h1⟩, h2⟩
  · rintro ⟨⟨v, h1⟩, h2⟩
    exact ⟨(k, v), ⟨h1, h2⟩, rfl⟩

theorem keysMissing_all (self other : List (Nat × List (PV V N A))) :
    (keysMissing self other).length = self.length ↔
      ∀ k v, (k, v) ∈ self → bmGet other k = none := by
  simp only [keysMissing, List.length_map, List.length_filter_eq_length_iff,
    Option.isNone_iff_eq_none, Prod.forall]

theorem removeKeys_sorted (self : List (Nat × List (PV V N A))) (ks : List Nat)
    (h : BmSorted self) : BmSorted (removeKeys self ks) := by
  unfold removeKeys
  induction ks generalizing self with
  | nil => exact h
  | cons k ks ih => exact ih _ (bmRemove_sorted h k)

theorem removeKeys_get (self : List (Nat × List (PV V N A))) (ks : List Nat)
    (h : BmSorted self) (k : Nat) :
    bmGet (removeKeys self ks) k = if k ∈ ks then none else bmGet self k := by
  unfold removeKeys
  induction ks generalizing self with
  | nil => simp
  | cons k' ks ih =>
    rw [List.foldl_cons, ih _ (bmRemove_sorted h k'), bmGet_remove h]
    by_cases h1 : k ∈ ks
    · simp [h1]
    · by_cases h2 : k' = k
      · simp [h2]
      · simp [h1, h2, Ne.symm h2]

/-- The entries of the meet of two sums. -/
theorem meet_get (self other : List (Nat × List (PV V N A))) (h : BmSorted self)
    (ho : BmSorted other) (k : Nat) :
    bmGet (removeKeys (meetRows self other).1
      (keysMissing self other ++ (meetRows self other).2.2)) k =
      match bmGet self k, bmGet other k with
      | some row, some v => some (meetRow row v).1
      | _, _ => none := by
  rw [removeKeys_get _ _ (meetRows_sorted self other h), meetRows_get self other h ho]
  have hmem : k ∈ keysMissing self other ++ (meetRows self other).2.2 ↔
      ((∃ v, (k, v) ∈ self) ∧ bmGet other k = none) ∨
      ((∃ v, (k, v) ∈ other) ∧ bmGet self k = none) := by
    rw [List.mem_append, keysMissing_mem, meetRows_missing self other h ho]
  cases h1 : bmGet self k with
  | none => simp
  | some row =>
    cases h2 : bmGet other k with
    | none => rw [if_pos (hmem.2 (Or.inl ⟨⟨row, bmGet_mem h1⟩, h2⟩))]
    | some v => rw [if_neg (fun hm => by rcases hmem.1 hm with ⟨_, h⟩ | ⟨_, h⟩ <;> simp_all)]

end Loops
end PV
end Dataflow
end Verif
