import Verif.Dataflow.ValueLemmas

/-!
# Join of abstract values (C16, C18)

Source: `/repo/hugr-passes/src/dataflow/partial_value.rs`.
-/
namespace Verif.Dataflow
namespace PV
variable {V N A W : Type}

section Zip
variable {α β : Type}

theorem forall₂_zip_left {R : α → α → Prop} {f : α → β → α} (row : List α) (v : List β)
    (hl : row.length = v.length) (h : ∀ y ∈ v, ∀ x ∈ row, R x (f x y)) :
    List.Forall₂ R row (List.zipWith f row v) := by
  induction row generalizing v with
  | nil => simp
  | cons x row ih =>
    cases v with
    | nil => simp at hl
    | cons y v =>
      refine .cons (h y (List.mem_cons_self ..) x (List.mem_cons_self ..)) (ih v (by simpa using hl) ?_)
      exact fun y' hy x' hx => h y' (List.mem_cons_of_mem _ hy) x' (List.mem_cons_of_mem _ hx)

theorem forall₂_zip_right {R : β → α → Prop} {f : α → β → α} (row : List α) (v : List β)
    (hl : row.length = v.length) (h : ∀ y ∈ v, ∀ x ∈ row, R y (f x y)) :
    List.Forall₂ R v (List.zipWith f row v) := by
  induction row generalizing v with
  | nil => cases v with
    | nil => simp
    | cons => simp at hl
  | cons x row ih =>
    cases v with
    | nil => simp at hl
    | cons y v =>
      refine .cons (h y (List.mem_cons_self ..) x (List.mem_cons_self ..)) (ih v (by simpa using hl) ?_)
      exact fun y' hy x' hx => h y' (List.mem_cons_of_mem _ hy) x' (List.mem_cons_of_mem _ hx)

theorem forall₂_zip_least {γ : Type} {R : α → γ → Prop} {f : α → α → α} (row v : List α)
    (z : List γ) (h1 : List.Forall₂ R row z) (h2 : List.Forall₂ R v z)
    (h : ∀ y ∈ v, ∀ x ∈ row, ∀ c, R x c → R y c → R (f x y) c) :
    List.Forall₂ R (List.zipWith f row v) z := by
  induction h1 generalizing v with
  | nil => cases h2; simp
  | cons hx hs ih =>
    cases h2 with
    | cons hy hs' =>
      refine .cons (h _ (List.mem_cons_self ..) _ (List.mem_cons_self ..) _ hx hy) (ih _ hs' ?_)
      exact fun y' hy x' hx => h y' (List.mem_cons_of_mem _ hy) x' (List.mem_cons_of_mem _ hx)

theorem mem_zipWith {γ : Type} {f : α → β → γ} {row : List α} {v : List β} {z : γ}
    (h : z ∈ List.zipWith f row v) : ∃ x ∈ row, ∃ y ∈ v, z = f x y := by
  induction row generalizing v with
  | nil => simp at h
  | cons x row ih =>
    cases v with
    | nil => simp at h
    | cons y v =>
      simp only [List.zipWith_cons_cons, List.mem_cons] at h
      rcases h with rfl | h
      · exact ⟨x, List.mem_cons_self .., y, List.mem_cons_self .., rfl⟩
      · obtain ⟨x', hx, y', hy, e⟩ := ih h
        exact ⟨x', List.mem_cons_of_mem _ hx, y', List.mem_cons_of_mem _ hy, e⟩

end Zip

variable [AbsVal V] [DecidableEq N]

/-- What an entry of the join of two sums is. -/
theorem join_entry {r s : List (Nat × List (PV V N A))} (hr : BmSorted r) (hs : BmSorted s)
    (hok : joinLengthsOk r s = true) {k : Nat} {row : List (PV V N A)}
    (hm : (k, row) ∈ (joinRows r s).1) :
    (∃ x y, (k, x) ∈ r ∧ (k, y) ∈ s ∧ x.length = y.length ∧
      row = List.zipWith (fun a b => (join a b).1) x y) ∨
    ((k, row) ∈ r ∧ bmGet s k = none) ∨ ((k, row) ∈ s ∧ bmGet r k = none) := by
  have hg := bmGet_of_mem (joinRows_sorted r s hr) hm
  rw [joinRows_get r s hr hs] at hg
  cases h1 : bmGet r k with
  | none =>
    rw [h1] at hg
    exact Or.inr (Or.inr ⟨bmGet_mem (by simpa using hg), rfl⟩)
  | some x =>
    cases h2 : bmGet s k with
    | none =>
      rw [h1, h2] at hg
      simp only [Option.some.injEq] at hg; subst hg
      exact Or.inr (Or.inl ⟨bmGet_mem h1, rfl⟩)
    | some y =>
      rw [h1, h2] at hg
      simp only [Option.some.injEq] at hg
      have hl := (joinLengthsOk_iff r s).1 hok k y (bmGet_mem h2) x h1
      left
      exact ⟨x, y, bmGet_mem h1, bmGet_mem h2, hl, by rw [← joinRow_fst x y hl]; exact hg.symm⟩

theorem joinRows_ne_nil {r s : List (Nat × List (PV V N A))} (hr : BmSorted r) (hs : BmSorted s)
    (hn : r ≠ []) : (joinRows r s).1 ≠ [] := by
  intro h
  cases r with
  | nil => exact hn rfl
  | cons e r =>
    obtain ⟨k, x⟩ := e
    have := joinRows_get ((k, x) :: r) s hr hs k
    rw [h] at this
    simp only [bmGet] at this
    cases h2 : bmGet s k <;> rw [h2] at this <;> simp at this

theorem join_wf (a b : PV V N A) (ha : WF a) (hb : WF b) : WF (join a b).1 := by
  induction b using induct generalizing a with
  | hbot => simpa [join] using ha
  | htop => cases a <;> simp [join, WF]
  | hval v =>
    cases a <;> simp only [join, WF]
    split <;> simp [WF]
  | hfunc n x =>
    cases a <;> simp only [join, WF]
    split <;> simp [WF]
  | hsum s ih =>
    cases a with
    | bottom => simpa [join] using hb
    | top => simp [join, WF]
    | func => simp [join, WF]
    | value => simp [join, WF]
    | psum r =>
      simp only [join]
      split
      · rename_i hok
        rw [wf_psum_iff] at *
        refine ⟨joinRows_ne_nil ha.2.1 hb.2.1 ha.1, joinRows_sorted r s ha.2.1, ?_⟩
        intro k row hm z hz
        rcases join_entry ha.2.1 hb.2.1 hok hm with ⟨x, y, hx, hy, _, rfl⟩ | ⟨h, _⟩ | ⟨h, _⟩
        · obtain ⟨x', hx', y', hy', rfl⟩ := mem_zipWith hz
          exact ih k y hy y' hy' x' (ha.2.2 k x hx x' hx') (hb.2.2 k y hy y' hy')
        · exact ha.2.2 k row h z hz
        · exact hb.2.2 k row h z hz
      · simp [WF]

theorem join_args {φ : N → A} (a b : PV V N A) (ha : WF a) (hb : WF b) (haa : ArgsBy φ a)
    (hba : ArgsBy φ b) : ArgsBy φ (join a b).1 := by
  induction b using induct generalizing a with
  | hbot => simpa [join] using haa
  | htop => cases a <;> simp [join, ArgsBy]
  | hval v =>
    cases a <;> simp only [join, ArgsBy]
    split <;> simp [ArgsBy]
  | hfunc n x =>
    cases a <;> simp only [join, ArgsBy] <;> simp only [ArgsBy] at haa hba
    · exact hba
    · split
      · exact haa
      · simp [ArgsBy]
  | hsum s ih =>
    cases a with
    | bottom => simpa [join] using hba
    | top => simp [join, ArgsBy]
    | func => simp [join, ArgsBy]
    | value => simp [join, ArgsBy]
    | psum r =>
      simp only [join]
      split
      · rename_i hok
        rw [wf_psum_iff] at ha hb
        rw [argsBy_psum_iff] at *
        intro k row hm z hz
        rcases join_entry ha.2.1 hb.2.1 hok hm with ⟨x, y, hx, hy, _, rfl⟩ | ⟨h, _⟩ | ⟨h, _⟩
        · obtain ⟨x', hx', y', hy', rfl⟩ := mem_zipWith hz
          exact ih k y hy y' hy' x' (ha.2.2 k x hx x' hx') (hb.2.2 k y hy y' hy')
            (haa k x hx x' hx') (hba k y hy y' hy')
        · exact haa k row h z hz
        · exact hba k row h z hz
      · simp [ArgsBy]

section Laws
variable {vle : V → V → Prop} (L : AbsLaws V vle)
include L

theorem le_join_left (a b : PV V N A) (ha : WF a) (hb : WF b) : Le vle a (join a b).1 := by
  induction b using induct generalizing a with
  | hbot => simp only [join]; exact le_refl L a ha
  | htop => cases a <;> simp [join, Le]
  | hval v =>
    cases a <;> simp only [join, Le, true_or]
    rename_i v'
    cases h : AbsVal.tryJoin v' v with
    | none => simp
    | some p => simp [(L.join_some _ _ p.1 p.2 h).1]
  | hfunc n x =>
    cases a <;> simp only [join, Le, true_or]
    split <;> simp
  | hsum s ih =>
    cases a with
    | bottom => simp [Le]
    | top => simp [join, Le]
    | func => simp [join, Le]
    | value => simp [join, Le]
    | psum r =>
      simp only [join]
      split
      · rename_i hok
        rw [wf_psum_iff] at ha hb
        rw [le_psum_iff]
        intro k row hm
        have hg := bmGet_of_mem ha.2.1 hm
        rw [joinRows_get r s ha.2.1 hb.2.1, hg]
        cases h2 : bmGet s k with
        | none =>
          exact ⟨row, rfl, List.forall₂_same.2 (fun x hx => le_refl L x (ha.2.2 k row hm x hx))⟩
        | some y =>
          have hm2 := bmGet_mem h2
          have hl := (joinLengthsOk_iff r s).1 hok k y hm2 row hg
          refine ⟨_, rfl, ?_⟩
          rw [joinRow_fst row y hl]
          exact forall₂_zip_left row y hl (fun y' hy' x' hx' =>
            ih k y hm2 y' hy' x' (ha.2.2 k row hm x' hx') (hb.2.2 k y hm2 y' hy'))
      · exact le_top vle _

theorem le_join_right {φ : N → A} (a b : PV V N A) (ha : WF a) (hb : WF b) (haa : ArgsBy φ a)
    (hba : ArgsBy φ b) : Le vle b (join a b).1 := by
  induction b using induct generalizing a with
  | hbot => trivial
  | htop => cases a <;> simp [join, Le]
  | hval v =>
    cases a with
    | value v' =>
      simp only [join]
      cases h : AbsVal.tryJoin v' v with
      | none => simp [Le]
      | some p => simp [Le, (L.join_some _ _ p.1 p.2 h).2.1]
    | _ => simp [join, Le, L.refl]
  | hfunc n x =>
    cases a with
    | func n' x' =>
      simp only [ArgsBy] at haa hba
      simp only [join]
      split
      · rename_i h; subst h; simp [Le, haa, hba]
      · simp [Le]
    | _ => simp [join, Le]
  | hsum s ih =>
    cases a with
    | bottom => simp only [join]; exact le_refl L _ hb
    | top => simp [join, Le]
    | func => simp [join, Le]
    | value => simp [join, Le]
    | psum r =>
      simp only [join]
      split
      · rename_i hok
        rw [wf_psum_iff] at ha hb
        rw [argsBy_psum_iff] at haa hba
        rw [le_psum_iff]
        intro k row hm
        have hg := bmGet_of_mem hb.2.1 hm
        rw [joinRows_get r s ha.2.1 hb.2.1, hg]
        cases h2 : bmGet r k with
        | none =>
          exact ⟨row, rfl, List.forall₂_same.2 (fun x hx => le_refl L x (hb.2.2 k row hm x hx))⟩
        | some x =>
          have hm2 := bmGet_mem h2
          have hl := (joinLengthsOk_iff r s).1 hok k row hm x h2
          refine ⟨_, rfl, ?_⟩
          rw [joinRow_fst x row hl]
          exact forall₂_zip_right x row hl (fun y' hy' x' hx' =>
            ih k row hm y' hy' x' (ha.2.2 k x hm2 x' hx') (hb.2.2 k row hm y' hy')
              (haa k x hm2 x' hx') (hba k row hm y' hy'))
      · exact le_top vle _

theorem join_least (a b c : PV V N A) (ha : WF a) (hb : WF b) (hac : Le vle a c)
    (hbc : Le vle b c) : Le vle (join a b).1 c := by
  induction b using induct generalizing a c with
  | hbot => simpa [join] using hac
  | htop => rw [top_le vle hbc]; exact le_top vle _
  | hval v =>
    cases a with
    | bottom => simpa [join] using hbc
    | top => simpa [join] using hac
    | func n x =>
      simp only [Le] at hac hbc
      rcases hac with rfl | rfl
      · exact le_top vle _
      · simp at hbc
    | psum r =>
      simp only [Le] at hac hbc
      rcases hac with rfl | ⟨_, rfl, _⟩
      · exact le_top vle _
      · simp at hbc
    | value v' =>
      simp only [Le] at hac hbc
      rcases hac with rfl | ⟨w, rfl, hw⟩
      · exact le_top vle _
      · simp only [reduceCtorEq, false_or, value.injEq, exists_eq_left'] at hbc
        simp only [join]
        cases h : AbsVal.tryJoin v' v with
        | none => exact absurd ⟨w, hw, hbc⟩ (L.join_none _ _ h)
        | some p => simp [Le, (L.join_some _ _ p.1 p.2 h).2.2.1 w hw hbc]
  | hfunc n x =>
    cases a with
    | bottom => simpa [join] using hbc
    | top => simpa [join] using hac
    | value v =>
      simp only [Le] at hac hbc
      rcases hac with rfl | ⟨_, rfl, _⟩
      · exact le_top vle _
      · simp at hbc
    | psum r =>
      simp only [Le] at hac hbc
      rcases hac with rfl | ⟨_, rfl, _⟩
      · exact le_top vle _
      · simp at hbc
    | func n' x' =>
      simp only [join]
      split
      · exact hac
      · rename_i hne
        simp only [Le] at hac hbc
        rcases hac with rfl | rfl
        · exact le_top vle _
        · simp [hne] at hbc
  | hsum s ih =>
    cases a with
    | bottom => simpa [join] using hbc
    | top => simpa [join] using hac
    | value v =>
      simp only [Le] at hac hbc
      rcases hac with rfl | ⟨_, rfl, _⟩
      · exact le_top vle _
      · simp at hbc
    | func n x =>
      simp only [Le] at hac hbc
      rcases hac with rfl | rfl
      · exact le_top vle _
      · simp at hbc
    | psum r =>
      cases c with
      | top => exact le_top vle _
      | bottom => simp [Le] at hac
      | func => simp [Le] at hac
      | value => simp [Le] at hac
      | psum t =>
        rw [wf_psum_iff] at ha hb
        rw [le_psum_iff] at hac hbc
        have hok : joinLengthsOk r s = true := by
          rw [joinLengthsOk_iff]
          intro k v hm row hg
          obtain ⟨z, hz, hf⟩ := hac k row (bmGet_mem hg)
          obtain ⟨z', hz', hf'⟩ := hbc k v hm
          rw [hz] at hz'; simp only [Option.some.injEq] at hz'; subst hz'
          rw [hf.length_eq, hf'.length_eq]
        simp only [join, hok, if_true]
        rw [le_psum_iff]
        intro k row hm
        rcases join_entry ha.2.1 hb.2.1 hok hm with ⟨x, y, hx, hy, _, rfl⟩ | ⟨h, _⟩ | ⟨h, _⟩
        · obtain ⟨z, hz, hf⟩ := hac k x hx
          obtain ⟨z', hz', hf'⟩ := hbc k y hy
          rw [hz] at hz'; simp only [Option.some.injEq] at hz'; subst hz'
          exact ⟨z, hz, forall₂_zip_least x y z hf hf' (fun y' hy' x' hx' c h h' =>
            ih k y hy y' hy' x' c (ha.2.2 k x hx x' hx') (hb.2.2 k y hy y' hy') h h')⟩
        · exact hac k row h
        · exact hbc k row h

end Laws

theorem zipWith_any_true {α : Type} (f : α → α → Bool) (row v : List α) :
    (List.zipWith f row v).any id = true ↔ ∃ p ∈ row.zip v, f p.1 p.2 = true := by
  induction row generalizing v with
  | nil => simp
  | cons x row ih => cases v with
    | nil => simp
    | cons y v => simp only [List.zipWith_cons_cons, List.any_cons, id, Bool.or_eq_true, ih,
        List.zip_cons_cons, List.mem_cons, exists_eq_or_imp]

theorem zipWith_eq_left {α β : Type} (f : α → β → α) (row : List α) (v : List β)
    (hl : row.length = v.length) :
    List.zipWith f row v = row ↔ ∀ p ∈ row.zip v, f p.1 p.2 = p.1 := by
  induction row generalizing v with
  | nil => simp
  | cons x row ih => cases v with
    | nil => simp at hl
    | cons y v =>
      simp only [List.length_cons, Nat.add_right_cancel_iff] at hl
      simp [ih v hl]

theorem join_flag {vle : V → V → Prop} (L : AbsLaws V vle) (a b : PV V N A) (ha : WF a)
    (hb : WF b) : (join a b).2 = true ↔ (join a b).1 ≠ a := by
  induction b using induct generalizing a with
  | hbot => simp [join]
  | htop => cases a <;> simp [join]
  | hval v =>
    cases a with
    | value v' =>
      simp only [join]
      cases h : AbsVal.tryJoin v' v with
      | none => simp
      | some p => simpa using (L.join_some _ _ p.1 p.2 h).2.2.2
    | _ => simp [join]
  | hfunc n x =>
    cases a with
    | func n' x' =>
      simp only [join]
      split <;> simp
    | _ => simp [join]
  | hsum s ih =>
    cases a with
    | bottom => simp [join]
    | top => simp [join]
    | func => simp [join]
    | value => simp [join]
    | psum r =>
      simp only [join]
      split
      · rename_i hok
        rw [wf_psum_iff] at ha hb
        simp only [ne_eq, psum.injEq]
        rw [joinRows_flag r s ha.2.1 hb.2.1]
        -- one row
        have hrow : ∀ k x y, (k, x) ∈ r → (k, y) ∈ s →
            ((joinRow x y).2 = true ↔ (joinRow x y).1 ≠ x) := by
          intro k x y hx hy
          have hl := (joinLengthsOk_iff r s).1 hok k y hy x (bmGet_of_mem ha.2.1 hx)
          rw [joinRow_snd, joinRow_fst x y hl, zipWith_any_true, ne_eq, zipWith_eq_left _ _ _ hl]
          simp only [not_forall, exists_prop]
          constructor
          · rintro ⟨p, hp, h⟩
            have := List.of_mem_zip (a := p.1) (b := p.2) hp
            exact ⟨p, hp, (ih k y hy p.2 this.2 p.1 (ha.2.2 k x hx _ this.1)
              (hb.2.2 k y hy _ this.2)).1 h⟩
          · rintro ⟨p, hp, h⟩
            have := List.of_mem_zip (a := p.1) (b := p.2) hp
            exact ⟨p, hp, (ih k y hy p.2 this.2 p.1 (ha.2.2 k x hx _ this.1)
              (hb.2.2 k y hy _ this.2)).2 h⟩
        constructor
        · rintro ⟨k, v, hm, hk | ⟨row, hk, hf⟩⟩ he
          · have hg := joinRows_get r s ha.2.1 hb.2.1 k
            rw [he, hk, bmGet_of_mem hb.2.1 hm] at hg
            simp at hg
          · have hg := joinRows_get r s ha.2.1 hb.2.1 k
            rw [he, hk, bmGet_of_mem hb.2.1 hm] at hg
            simp only [Option.some.injEq] at hg
            exact (hrow k row v (bmGet_mem hk) hm).1 hf hg.symm
        · intro hne
          by_contra hno
          apply hne
          refine bm_ext (joinRows_sorted r s ha.2.1) ha.2.1 (fun k => ?_)
          rw [joinRows_get r s ha.2.1 hb.2.1 k]
          cases h1 : bmGet r k with
          | none =>
            cases h2 : bmGet s k with
            | none => rfl
            | some v => exact absurd ⟨k, v, bmGet_mem h2, Or.inl h1⟩ hno
          | some x =>
            cases h2 : bmGet s k with
            | none => rfl
            | some v =>
              simp only [Option.some.injEq]
              by_contra hx
              exact hno ⟨k, v, bmGet_mem h2, Or.inr ⟨x, h1,
                (hrow k x v (bmGet_mem h1) (bmGet_mem h2)).2 hx⟩⟩
      · simp

end PV
end Verif.Dataflow
