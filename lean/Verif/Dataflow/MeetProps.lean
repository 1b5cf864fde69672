import Verif.Dataflow.JoinProps

/-!
# Meet of abstract values (lemmas for C17, C18)

Source: `/repo/hugr-passes/src/dataflow/partial_value.rs`.
-/
namespace Verif.Dataflow
namespace PV
variable {V N A W : Type}

section Zip
variable {α β : Type}

theorem forall₂_zip_le_left {R : α → α → Prop} {f : α → β → α} (row : List α) (v : List β)
    (hl : row.length = v.length) (h : ∀ y ∈ v, ∀ x ∈ row, R (f x y) x) :
    List.Forall₂ R (List.zipWith f row v) row := by
  induction row generalizing v with
  | nil => simp
  | cons x row ih =>
    cases v with
    | nil => simp at hl
    | cons y v =>
      refine .cons (h y (List.mem_cons_self ..) x (List.mem_cons_self ..)) (ih v (by simpa using hl) ?_)
      exact fun y' hy x' hx => h y' (List.mem_cons_of_mem _ hy) x' (List.mem_cons_of_mem _ hx)

theorem forall₂_zip_le_right {R : α → β → Prop} {f : α → β → α} (row : List α) (v : List β)
    (hl : row.length = v.length) (h : ∀ y ∈ v, ∀ x ∈ row, R (f x y) y) :
    List.Forall₂ R (List.zipWith f row v) v := by
  induction row generalizing v with
  | nil => cases v with
    | nil => simp
    | cons => simp at hl
  | cons x row ih =>
    cases v with
    | nil => simp at hl
    | cons y v =>
      refine .cons (h y (List.mem_cons_self ..) x (List.mem_cons_self ..)) (ih v (by simpa using hl) ?_)
      exact fun y' hy x' hx => h y' (List.mem_cons_of_mem _ hy) x' (List.mem_cons_of_mem _ hx)

/-- Rows of one type: elementwise facts with the type of each element. -/
theorem forall₂_zip_greatest {γ τ : Type} {F : α → τ → Prop} {R : γ → α → Prop} {f : α → α → α}
    (row v : List α) (ts : List τ) (z : List γ) (hf1 : List.Forall₂ F row ts)
    (hf2 : List.Forall₂ F v ts) (h1 : List.Forall₂ R z row) (h2 : List.Forall₂ R z v)
    (h : ∀ y ∈ v, ∀ x ∈ row, ∀ c ∈ z, ∀ t, F x t → F y t → R c x → R c y → R c (f x y)) :
    List.Forall₂ R z (List.zipWith f row v) := by
  induction hf1 generalizing v z with
  | nil => cases hf2; cases h1; simp
  | cons hx hs ih =>
    cases hf2 with
    | cons hy hs' =>
      cases h1 with
      | cons h1 hs1 =>
        cases h2 with
        | cons h2 hs2 =>
          refine .cons (h _ (List.mem_cons_self ..) _ (List.mem_cons_self ..) _
            (List.mem_cons_self ..) _ hx hy h1 h2) (ih _ _ hs' hs1 hs2 ?_)
          exact fun y' hy x' hx c hc => h y' (List.mem_cons_of_mem _ hy) x'
            (List.mem_cons_of_mem _ hx) c (List.mem_cons_of_mem _ hc)

end Zip

variable [AbsVal V] [DecidableEq N]

/-- What an entry of the meet of two sums is. -/
theorem meet_entry {r s : List (Nat × List (PV V N A))} (hr : BmSorted r) (hs : BmSorted s)
    (hok : meetLengthsOk r s = true) {k : Nat} {row : List (PV V N A)}
    (hg : bmGet (removeKeys (meetRows r s).1 (keysMissing r s ++ (meetRows r s).2.2)) k
      = some row) :
    ∃ x y, (k, x) ∈ r ∧ (k, y) ∈ s ∧ x.length = y.length ∧
      row = List.zipWith (fun a b => (meet a b).1) x y := by
  rw [meet_get r s hr hs] at hg
  cases h1 : bmGet r k with
  | none => rw [h1] at hg; simp at hg
  | some x =>
    cases h2 : bmGet s k with
    | none => rw [h1, h2] at hg; simp at hg
    | some y =>
      rw [h1, h2] at hg
      simp only [Option.some.injEq] at hg
      have hl := (meetLengthsOk_iff r s).1 hok k x (bmGet_mem h1) y h2
      exact ⟨x, y, bmGet_mem h1, bmGet_mem h2, hl, by rw [← meetRow_fst x y hl]; exact hg.symm⟩

theorem meet_entry_of {r s : List (Nat × List (PV V N A))} (hr : BmSorted r) (hs : BmSorted s)
    (hok : meetLengthsOk r s = true) {k : Nat} {x y : List (PV V N A)} (hx : (k, x) ∈ r)
    (hy : (k, y) ∈ s) :
    bmGet (removeKeys (meetRows r s).1 (keysMissing r s ++ (meetRows r s).2.2)) k
      = some (List.zipWith (fun a b => (meet a b).1) x y) := by
  have h1 := bmGet_of_mem hr hx
  have h2 := bmGet_of_mem hs hy
  have hl := (meetLengthsOk_iff r s).1 hok k x hx y h2
  rw [meet_get r s hr hs, h1, h2]
  simp only [meetRow_fst x y hl]

theorem meet_wf (a b : PV V N A) (ha : WF a) (hb : WF b) : WF (meet a b).1 := by
  induction b using induct generalizing a with
  | htop => simpa [meet] using ha
  | hbot => cases a <;> simp [meet, WF]
  | hval v =>
    cases a <;> simp only [meet, WF]
    split <;> simp [WF]
  | hfunc n x =>
    cases a <;> simp only [meet, WF]
    split <;> simp [WF]
  | hsum s ih =>
    cases a with
    | top => simpa [meet] using hb
    | bottom => simp [meet, WF]
    | func => simp [meet, WF]
    | value => simp [meet, WF]
    | psum r =>
      simp only [meet]
      split
      · simp [WF]
      · rename_i hc
        simp only [not_or, Bool.not_eq_false] at hc
        obtain ⟨hok, hall⟩ := hc
        rw [wf_psum_iff] at *
        have hso := removeKeys_sorted _ (keysMissing r s ++ (meetRows r s).2.2)
          (meetRows_sorted r s ha.2.1)
        refine ⟨?_, hso, ?_⟩
        · intro he
          rw [keysMissing_all] at hall
          simp only [not_forall] at hall
          obtain ⟨k, x, hx, hk⟩ := hall
          cases h2 : bmGet s k with
          | none => exact hk h2
          | some y =>
            have := meet_entry_of ha.2.1 hb.2.1 hok hx (bmGet_mem h2)
            rw [he] at this; simp [bmGet] at this
        · intro k row hm z hz
          obtain ⟨x, y, hx, hy, _, rfl⟩ := meet_entry ha.2.1 hb.2.1 hok (bmGet_of_mem hso hm)
          obtain ⟨x', hx', y', hy', rfl⟩ := mem_zipWith hz
          exact ih k y hy y' hy' x' (ha.2.2 k x hx x' hx') (hb.2.2 k y hy y' hy')

section Laws
variable {vle : V → V → Prop} (L : AbsLaws V vle)
include L

theorem meet_le_left (a b : PV V N A) (ha : WF a) (hb : WF b) : Le vle (meet a b).1 a := by
  induction b using induct generalizing a with
  | htop => simp only [meet]; exact le_refl L a ha
  | hbot => cases a <;> simp [meet, Le]
  | hval v =>
    cases a with
    | value v' =>
      simp only [meet]
      cases h : AbsVal.tryMeet v' v with
      | none => simp [Le]
      | some p => simp [Le, (L.meet_some _ _ p.1 p.2 h).1]
    | _ => simp [meet, Le]
  | hfunc n x =>
    cases a with
    | func => simp only [meet]; split <;> simp [Le]
    | _ => simp [meet, Le]
  | hsum s ih =>
    cases a with
    | bottom => simp [meet, Le]
    | top => exact le_top vle _
    | func => simp [meet, Le]
    | value => simp [meet, Le]
    | psum r =>
      simp only [meet]
      split
      · simp [Le]
      · rename_i hc
        simp only [not_or, Bool.not_eq_false] at hc
        obtain ⟨hok, hall⟩ := hc
        rw [wf_psum_iff] at ha hb
        have hso := removeKeys_sorted _ (keysMissing r s ++ (meetRows r s).2.2)
          (meetRows_sorted r s ha.2.1)
        rw [le_psum_iff]
        intro k row hm
        obtain ⟨x, y, hx, hy, hl, rfl⟩ := meet_entry ha.2.1 hb.2.1 hok (bmGet_of_mem hso hm)
        refine ⟨x, bmGet_of_mem ha.2.1 hx, forall₂_zip_le_left x y hl (fun y' hy' x' hx' =>
          ih k y hy y' hy' x' (ha.2.2 k x hx x' hx') (hb.2.2 k y hy y' hy'))⟩

theorem meet_le_right {φ : N → A} (a b : PV V N A) (ha : WF a) (hb : WF b) (haa : ArgsBy φ a)
    (hba : ArgsBy φ b) : Le vle (meet a b).1 b := by
  induction b using induct generalizing a with
  | htop => exact le_top vle _
  | hbot => cases a <;> simp [meet, Le]
  | hval v =>
    cases a with
    | value v' =>
      simp only [meet]
      cases h : AbsVal.tryMeet v' v with
      | none => simp [Le]
      | some p => simp [Le, (L.meet_some _ _ p.1 p.2 h).2.1]
    | _ => simp [meet, Le, L.refl]
  | hfunc n x =>
    cases a with
    | func n' x' =>
      simp only [ArgsBy] at haa hba
      simp only [meet]
      split
      · rename_i h; subst h; simp [Le, haa, hba]
      · simp [Le]
    | _ => simp [meet, Le]
  | hsum s ih =>
    cases a with
    | bottom => simp [meet, Le]
    | top => simp only [meet]; exact le_refl L _ hb
    | func => simp [meet, Le]
    | value => simp [meet, Le]
    | psum r =>
      simp only [meet]
      split
      · simp [Le]
      · rename_i hc
        simp only [not_or, Bool.not_eq_false] at hc
        obtain ⟨hok, hall⟩ := hc
        rw [wf_psum_iff] at ha hb
        rw [argsBy_psum_iff] at haa hba
        have hso := removeKeys_sorted _ (keysMissing r s ++ (meetRows r s).2.2)
          (meetRows_sorted r s ha.2.1)
        rw [le_psum_iff]
        intro k row hm
        obtain ⟨x, y, hx, hy, hl, rfl⟩ := meet_entry ha.2.1 hb.2.1 hok (bmGet_of_mem hso hm)
        refine ⟨y, bmGet_of_mem hb.2.1 hy, forall₂_zip_le_right x y hl (fun y' hy' x' hx' =>
          ih k y hy y' hy' x' (ha.2.2 k x hx x' hx') (hb.2.2 k y hy y' hy')
            (haa k x hx x' hx') (hba k y hy y' hy'))⟩

omit L in
/-- Rows of sums of one type have the same lengths. -/
theorem fits_lengths {r s : List (Nat × List (PV V N A))} {t : Shape} (hr : Fits (psum r) t)
    (hs : Fits (psum s) t) : meetLengthsOk r s = true ∧
      ∀ k x y, (k, x) ∈ r → (k, y) ∈ s → ∃ ts, List.Forall₂ Fits x ts ∧ List.Forall₂ Fits y ts := by
  simp only [Fits] at hr hs
  obtain ⟨vs, rfl, hr⟩ := hr
  obtain ⟨vs', he, hs⟩ := hs
  simp only [Shape.sum.injEq] at he; subst he
  rw [fitsRows_iff] at hr hs
  have hb : ∀ k x y, (k, x) ∈ r → (k, y) ∈ s →
      ∃ ts, List.Forall₂ Fits x ts ∧ List.Forall₂ Fits y ts := by
    intro k x y hx hy
    obtain ⟨ts, h1, h2⟩ := hr k x hx
    obtain ⟨ts', h1', h2'⟩ := hs k y hy
    rw [h1] at h1'; simp only [Option.some.injEq] at h1'; subst h1'
    exact ⟨ts, h2, h2'⟩
  refine ⟨?_, hb⟩
  rw [meetLengthsOk_iff]
  intro k v hm row hg
  obtain ⟨ts, h1, h2⟩ := hb k v row hm (bmGet_mem hg)
  rw [h1.length_eq, h2.length_eq]

theorem meet_greatest (a b c : PV V N A) (t : Shape) (ha : WF a) (hb : WF b) (hc : WF c)
    (fa : Fits a t) (fb : Fits b t) (hca : Le vle c a) (hcb : Le vle c b) :
    Le vle c (meet a b).1 := by
  induction b using induct generalizing a c t with
  | htop => simpa [meet] using hca
  | hbot =>
    rw [le_bottom vle hcb]; trivial
  | hval v =>
    cases a with
    | bottom => simpa [meet] using hca
    | top => simpa [meet] using hcb
    | func n x =>
      cases c <;> simp [Le] at hca hcb ⊢
    | psum r =>
      cases c <;> simp [Le] at hca hcb ⊢
    | value v' =>
      cases c with
      | bottom => trivial
      | top => simp [Le] at hca
      | func => simp [Le] at hca
      | psum => simp [Le] at hca
      | value w =>
        simp only [Le, reduceCtorEq, false_or, value.injEq, exists_eq_left'] at hca hcb
        simp only [meet]
        cases h : AbsVal.tryMeet v' v with
        | none => exact absurd ⟨w, hca, hcb⟩ (L.meet_none _ _ h)
        | some p => simp [Le, (L.meet_some _ _ p.1 p.2 h).2.2.1 w hca hcb]
  | hfunc n x =>
    cases a with
    | bottom => simpa [meet] using hca
    | top => simpa [meet] using hcb
    | value => cases c <;> simp [Le] at hca hcb ⊢
    | psum r => cases c <;> simp [Le] at hca hcb ⊢
    | func n' x' =>
      simp only [meet]
      split
      · exact hca
      · rename_i hne
        cases c with
        | func n'' x'' =>
          simp only [Le, reduceCtorEq, false_or, func.injEq] at hca hcb
          exact absurd (hca.1.trans hcb.1.symm) hne
        | _ => simp [Le] at hca hcb ⊢
  | hsum s ih =>
    cases a with
    | bottom => simpa [meet] using hca
    | top => simpa [meet] using hcb
    | func => cases c <;> simp [Le] at hca hcb ⊢
    | value => cases c <;> simp [Le] at hca hcb ⊢
    | psum r =>
      cases c with
      | bottom => trivial
      | top => simp [Le] at hca
      | func => simp [Le] at hca
      | value => simp [Le] at hca
      | psum q =>
        rw [wf_psum_iff] at ha hb hc
        obtain ⟨hok, hfit⟩ := fits_lengths fa fb
        rw [le_psum_iff] at hca hcb
        have hall : ¬ (keysMissing r s).length = r.length := by
          rw [keysMissing_all]
          intro hno
          cases q with
          | nil => exact hc.1 rfl
          | cons e q =>
            obtain ⟨k, row⟩ := e
            obtain ⟨x, hx, _⟩ := hca k row (List.mem_cons_self ..)
            obtain ⟨y, hy, _⟩ := hcb k row (List.mem_cons_self ..)
            rw [hno k x (bmGet_mem hx)] at hy; simp at hy
        simp only [meet, hok, hall, Bool.true_eq_false, or_self, if_false]
        rw [le_psum_iff]
        intro k row hm
        obtain ⟨x, hx, hfx⟩ := hca k row hm
        obtain ⟨y, hy, hfy⟩ := hcb k row hm
        refine ⟨_, meet_entry_of ha.2.1 hb.2.1 hok (bmGet_mem hx) (bmGet_mem hy), ?_⟩
        obtain ⟨ts, h1, h2⟩ := hfit k x y (bmGet_mem hx) (bmGet_mem hy)
        exact forall₂_zip_greatest x y ts row h1 h2 hfx hfy (fun y' hy' x' hx' c hcm t ft ft' hl hl' =>
          ih k y (bmGet_mem hy) y' hy' x' c t (ha.2.2 k x (bmGet_mem hx) x' hx')
            (hb.2.2 k y (bmGet_mem hy) y' hy') (hc.2.2 k row hm c hcm) ft ft' hl hl')

end Laws

omit [DecidableEq N] in
theorem describes_mono {vle : V → V → Prop} {vd : V → W → Prop} (D : ∀ a b w, vle a b → vd a w → vd b w)
    (a b : PV V N A) (c : Conc W N A) (h : Le vle a b) (hd : Describes vd a c) :
    Describes vd b c := by
  induction a using induct generalizing b c with
  | hbot => simp [Describes] at hd
  | htop => rw [top_le vle h]; trivial
  | hfunc n x =>
    simp only [Le] at h
    rcases h with rfl | rfl
    · trivial
    · exact hd
  | hval v =>
    simp only [Le] at h
    rcases h with rfl | ⟨w, rfl, hw⟩
    · trivial
    · simp only [Describes] at hd ⊢
      obtain ⟨x, rfl, hx⟩ := hd
      exact ⟨x, rfl, D _ _ _ hw hx⟩
  | hsum r ih =>
    cases b with
    | top => trivial
    | bottom => simp [Le] at h
    | func => simp [Le] at h
    | value => simp [Le] at h
    | psum s =>
      rw [le_psum_iff] at h
      simp only [Describes, describesRows_iff] at hd ⊢
      obtain ⟨tag, xs, rfl, row, hm, hf⟩ := hd
      obtain ⟨row', hg, hl⟩ := h tag row hm
      refine ⟨tag, xs, rfl, row', bmGet_mem hg, ?_⟩
      have hx := ih tag row hm
      clear ih hm hg h
      induction hl generalizing xs with
      | nil => exact hf
      | cons h hs ih2 =>
        cases hf with
        | cons h' hs' =>
          exact .cons (hx _ (List.mem_cons_self ..) _ _ h h')
            (ih2 _ hs' (fun x hm => hx x (List.mem_cons_of_mem _ hm)))

theorem meet_describes {vle : V → V → Prop} {vd : V → W → Prop} (D : LawfulDesc V vle vd)
    (a b : PV V N A) (c : Conc W N A) (t : Shape) (ha : WF a) (hb : WF b) (fa : Fits a t)
    (fb : Fits b t) (hda : Describes vd a c) (hdb : Describes vd b c) :
    Describes vd (meet a b).1 c := by
  induction b using induct generalizing a c t with
  | htop => simpa [meet] using hda
  | hbot => simp [Describes] at hdb
  | hval v =>
    simp only [Describes] at hdb
    obtain ⟨w, rfl, hw⟩ := hdb
    cases a with
    | bottom => simp [Describes] at hda
    | top => simp only [meet, Describes]; exact ⟨w, rfl, hw⟩
    | func => simp [Describes] at hda
    | psum => simp [Describes] at hda
    | value v' =>
      simp only [Describes, Conc.val.injEq, exists_eq_left'] at hda
      simp only [meet]
      cases h : AbsVal.tryMeet v' v with
      | none => exact absurd hw (D.meet_none _ _ _ h hda)
      | some p => simp only [Describes]; exact ⟨w, rfl, D.meet_some _ _ p.1 p.2 w h hda hw⟩
  | hfunc n x =>
    simp only [Describes] at hdb
    subst hdb
    cases a with
    | bottom => simp [Describes] at hda
    | top => simp [meet, Describes]
    | value => simp [Describes] at hda
    | psum => simp [Describes] at hda
    | func n' x' =>
      simp only [Describes, Conc.func.injEq] at hda
      simp [meet, Describes, hda.1, hda.2]
  | hsum s ih =>
    cases a with
    | bottom => simp [Describes] at hda
    | top => simpa [meet] using hdb
    | value => simp only [Describes] at hda hdb; obtain ⟨w, rfl, _⟩ := hda; simp at hdb
    | func => simp only [Describes] at hda hdb; subst hda; simp at hdb
    | psum r =>
      rw [wf_psum_iff] at ha hb
      obtain ⟨hok, hfit⟩ := fits_lengths fa fb
      simp only [Describes, describesRows_iff] at hda hdb
      obtain ⟨tag, xs, rfl, x, hx, hfx⟩ := hda
      obtain ⟨_, _, he, y, hy, hfy⟩ := hdb
      simp only [Conc.sum.injEq] at he
      obtain ⟨rfl, rfl⟩ := he
      have hall : ¬ (keysMissing r s).length = r.length := by
        rw [keysMissing_all]
        intro hno
        have := hno tag x hx
        rw [bmGet_of_mem hb.2.1 hy] at this; simp at this
      simp only [meet, hok, hall, Bool.true_eq_false, or_self, if_false]
      simp only [Describes, describesRows_iff]
      refine ⟨tag, xs, rfl, _, bmGet_mem (meet_entry_of ha.2.1 hb.2.1 hok hx hy), ?_⟩
      obtain ⟨ts, h1, h2⟩ := hfit tag x y hx hy
      have key := forall₂_zip_greatest (f := fun a b => (meet a b).1)
        (R := fun c p => Describes vd p c) x y ts xs h1 h2
        (List.Forall₂.flip hfx) (List.Forall₂.flip hfy)
        (fun y' hy' x' hx' c _ t ft ft' hl hl' =>
          ih tag y hy y' hy' x' c t (ha.2.2 tag x hx x' hx') (hb.2.2 tag y hy y' hy') ft ft' hl hl')
      exact List.Forall₂.flip key

theorem meet_unchanged {vle : V → V → Prop} (L : AbsLaws V vle) (a b : PV V N A) (ha : WF a)
    (hb : WF b) (hf : (meet a b).2 = false) : (meet a b).1 = a := by
  induction b using induct generalizing a with
  | htop => simp [meet]
  | hbot => cases a <;> simp [meet] at hf ⊢
  | hval v =>
    cases a with
    | value v' =>
      simp only [meet] at hf ⊢
      cases h : AbsVal.tryMeet v' v with
      | none => rw [h] at hf; simp at hf
      | some p =>
        rw [h] at hf
        simp only [value.injEq] at hf ⊢
        by_contra hne
        have := (L.meet_some _ _ p.1 p.2 h).2.2.2.2 hne
        rw [this] at hf; simp at hf
    | _ => simp [meet] at hf ⊢
  | hfunc n x =>
    cases a with
    | func n' x' =>
      simp only [meet] at hf ⊢
      split
      · rfl
      · rename_i h; rw [if_neg h] at hf; simp at hf
    | _ => simp [meet] at hf ⊢
  | hsum s ih =>
    cases a with
    | bottom => simp [meet] at hf ⊢
    | top => simp [meet] at hf
    | func => simp [meet] at hf
    | value => simp [meet] at hf
    | psum r =>
      simp only [meet] at hf ⊢
      split
      · rename_i h; rw [if_pos h] at hf; simp at hf
      · rename_i hc
        rw [if_neg hc] at hf
        simp only [Bool.or_eq_false_iff, Bool.not_eq_false', List.isEmpty_iff] at hf
        simp only [not_or, Bool.not_eq_false] at hc
        rw [wf_psum_iff] at ha hb
        simp only [psum.injEq]
        have hso := removeKeys_sorted _ (keysMissing r s ++ (meetRows r s).2.2)
          (meetRows_sorted r s ha.2.1)
        refine bm_ext hso ha.2.1 (fun k => ?_)
        cases h1 : bmGet r k with
        | none => rw [meet_get r s ha.2.1 hb.2.1, h1]
        | some x =>
          have hx := bmGet_mem h1
          cases h2 : bmGet s k with
          | none =>
            have : k ∈ keysMissing r s := (keysMissing_mem r s k).2 ⟨⟨x, hx⟩, h2⟩
            have hnil : keysMissing r s = [] := (List.append_eq_nil_iff.1 hf.2).1
            rw [hnil] at this; simp at this
          | some y =>
            have hy := bmGet_mem h2
            rw [meet_entry_of ha.2.1 hb.2.1 hc.1 hx hy]
            congr 1
            have hl := (meetLengthsOk_iff r s).1 hc.1 k x hx y h2
            rw [zipWith_eq_left _ _ _ hl]
            intro p hp
            have hpm := List.of_mem_zip (a := p.1) (b := p.2) hp
            refine ih k y hy p.2 hpm.2 p.1 (ha.2.2 k x hx _ hpm.1) (hb.2.2 k y hy _ hpm.2) ?_
            by_contra hne
            rw [Bool.not_eq_false] at hne
            have : (meetRows r s).2.1 = true :=
              (meetRows_flag r s ha.2.1 hb.2.1).2 ⟨k, y, hy, x, h1, by
                rw [meetRow_snd, zipWith_any_true]; exact ⟨p, hp, hne⟩⟩
            rw [this] at hf; simp at hf

end PV
end Verif.Dataflow
