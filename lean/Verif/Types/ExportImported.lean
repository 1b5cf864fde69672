import Verif.Types.ExportPoly
/-
What is imported can be expressed in the exchange format.
-/
namespace Verif.Types

mutual
/-- Variable indices are `u16`, hugr-model/src/v0/table/mod.rs:319. -/
def MTerm.fits : MTerm → Prop
  | .var i => i < 2 ^ 16
  | .apply _ args => fitsArgs args
  | .list ps => fitsParts ps
  | .tuple ps => fitsParts ps
  | _ => True
def fitsArgs : List MTerm → Prop
  | [] => True
  | t :: ts => t.fits ∧ fitsArgs ts
def fitsParts : List MPart → Prop
  | [] => True
  | .item t :: ps => t.fits ∧ fitsParts ps
  | .splice t :: ps => t.fits ∧ fitsParts ps
end

theorem losslessTerms_iff (C : Ident.Classes) (ts : List Term) :
    LosslessTerms C ts ↔ ∀ t ∈ ts, t.Lossless C := by
  induction ts with
  | nil => simp [LosslessTerms]
  | cons t ts ih => simp [LosslessTerms, ih]

theorem losslessRow_append (C : Ident.Classes) (r s : List RTy) :
    LosslessRow C (r ++ s) ↔ LosslessRow C r ∧ LosslessRow C s := by
  induction r with
  | nil => simp [LosslessRow]
  | cons t ts ih => simp [LosslessRow, ih, and_assoc]

theorem losslessRows_append (C : Ident.Classes) (r s : List (List RTy)) :
    LosslessRows C (r ++ s) ↔ LosslessRows C r ∧ LosslessRows C s := by
  induction r with
  | nil => simp [LosslessRows]
  | cons t ts ih => simp [LosslessRows, ih, and_assoc]

theorem builtRow_append (r s : List RTy) :
    builtRow (r ++ s) = (builtRow r && builtRow s) := by
  induction r with
  | nil => simp [builtRow]
  | cons t ts ih => simp [builtRow, ih, Bool.and_assoc]

theorem builtRows_append (r s : List (List RTy)) :
    builtRows (r ++ s) = (builtRows r && builtRows s) := by
  induction r with
  | nil => simp [builtRows]
  | cons t ts ih => simp [builtRows, ih, Bool.and_assoc]

/-- Can be expressed and is made by the constructors. -/
def Term.Fine (C : Ident.Classes) (t : Term) : Prop := t.Lossless C ∧ t.built = true

/-- See `Term.Fine`. -/
def SeqPart.Fine (C : Ident.Classes) : SeqPart → Prop
  | .item t => t.Fine C
  | .splice t => t.Fine C

theorem fine_list (C : Ident.Classes) (ts : List Term) :
    (Term.list ts).Fine C ↔ ∀ t ∈ ts, t.Fine C := by
  simp only [Term.Fine, Term.Lossless, losslessTerms_iff, Term.built, builtTerms_iff]
  exact ⟨fun h t ht => ⟨h.1 t ht, h.2 t ht⟩, fun h => ⟨fun t ht => (h t ht).1, fun t ht => (h t ht).2⟩⟩

theorem fine_tuple (C : Ident.Classes) (ts : List Term) :
    (Term.tuple ts).Fine C ↔ ∀ t ∈ ts, t.Fine C := by
  simp only [Term.Fine, Term.Lossless, losslessTerms_iff, Term.built, builtTerms_iff]
  exact ⟨fun h t ht => ⟨h.1 t ht, h.2 t ht⟩, fun h => ⟨fun t ht => (h t ht).1, fun t ht => (h t ht).2⟩⟩

theorem fine_fold {C : Ident.Classes} {mk : List Term → Term}
    (hmk : ∀ ts, (∀ t ∈ ts, t.Fine C) → (mk ts).Fine C) (ps : List SeqPart)
    (hps : ∀ p ∈ ps, p.Fine C) (s : List Term × List Term) (h1 : ∀ t ∈ s.1, t.Fine C)
    (h2 : ∀ t ∈ s.2, t.Fine C) :
    (∀ t ∈ (ps.foldl (seqStep mk) s).1, t.Fine C) ∧ ∀ t ∈ (ps.foldl (seqStep mk) s).2, t.Fine C := by
  induction ps generalizing s with
  | nil => exact ⟨h1, h2⟩
  | cons p ps ih =>
    have hp := hps p (by simp)
    rw [List.foldl_cons]
    apply ih (fun p hp => hps p (by simp [hp]))
    · cases p with
      | item t =>
        intro x hx
        simp only [seqStep, List.mem_append, List.mem_singleton] at hx
        rcases hx with hx | rfl
        · exact h1 x hx
        · exact hp
      | splice t => simp [seqStep]
    · cases p with
      | item t => exact h2
      | splice t =>
        intro x hx
        simp only [seqStep] at hx
        split at hx
        · simp only [List.mem_append, List.mem_singleton] at hx
          rcases hx with hx | rfl
          · exact h2 x hx
          · exact hp
        · simp only [List.mem_append, List.mem_singleton] at hx
          rcases hx with (hx | rfl) | rfl
          · exact h2 x hx
          · exact hmk _ h1
          · exact hp

theorem fine_listParts {C : Ident.Classes} (t : Term) (h : t.Fine C) :
    ∀ p ∈ t.listParts, p.Fine C := by
  induction t using list_induction with
  | list es =>
    intro p hp
    obtain ⟨e, he, rfl⟩ := List.mem_map.1 hp
    exact (fine_list C es).1 h e he
  | concat ts ih =>
    intro p hp
    simp only [Term.listParts, listPartsAll_eq] at hp
    obtain ⟨t, ht, hp⟩ := List.mem_flatMap.1 hp
    refine ih t ht ⟨(losslessTerms_iff C ts).1 h.1.1 t ht, (builtTerms_iff ts).1 h.2 t ht⟩ p hp
  | other t ht =>
    intro p hp
    rw [listParts_other ht] at hp
    simp at hp; subst hp; exact h

theorem fine_tupleParts {C : Ident.Classes} (t : Term) (h : t.Fine C) :
    ∀ p ∈ t.tupleParts, p.Fine C := by
  induction t using tuple_induction with
  | tuple es =>
    intro p hp
    obtain ⟨e, he, rfl⟩ := List.mem_map.1 hp
    exact (fine_tuple C es).1 h e he
  | concat ts ih =>
    intro p hp
    simp only [Term.tupleParts, tuplePartsAll_eq] at hp
    obtain ⟨t, ht, hp⟩ := List.mem_flatMap.1 hp
    refine ih t ht ⟨(losslessTerms_iff C ts).1 h.1.1 t ht, (builtTerms_iff ts).1 h.2 t ht⟩ p hp
  | other t ht =>
    intro p hp
    rw [tupleParts_other ht] at hp
    simp at hp; subst hp; exact h

theorem fine_newList {C : Ident.Classes} (ps : List SeqPart) (h : ∀ p ∈ ps, p.Fine C) :
    (newListFromParts ps).Fine C := by
  have hps : ∀ p ∈ ps.flatMap SeqPart.listExpand, p.Fine C := by
    intro p hp
    obtain ⟨q, hq, hp⟩ := List.mem_flatMap.1 hp
    cases q with
    | item t => simp [SeqPart.listExpand] at hp; subst hp; exact h _ hq
    | splice t => exact fine_listParts t (h _ hq) p hp
  obtain ⟨h1, h2⟩ := fine_fold (mk := .list) (fun ts h => (fine_list C ts).2 h) _ hps ([], [])
    (by simp) (by simp)
  have key : ∀ ts, newListFromParts ps = .listConcat ts → (∀ t ∈ ts, t.Fine C) →
      (newListFromParts ps).Fine C := by
    intro ts he ht
    rw [he]
    exact ⟨⟨(losslessTerms_iff C ts).2 (fun t h => (ht t h).1), ps, he.symm⟩,
      (builtTerms_iff ts).2 (fun t h => (ht t h).2)⟩
  by_cases e1 : ((ps.flatMap SeqPart.listExpand).foldl (seqStep .list) ([], [])).2.isEmpty = true
  · have : newListFromParts ps
        = .list ((ps.flatMap SeqPart.listExpand).foldl (seqStep .list) ([], [])).1 := by
      unfold newListFromParts newSeqFromParts; simp only []; rw [if_pos e1]
    rw [this]; exact (fine_list C _).2 h1
  · by_cases e2 : ((ps.flatMap SeqPart.listExpand).foldl (seqStep .list) ([], [])).1.isEmpty = true
    · refine key _ ?_ h2
      unfold newListFromParts newSeqFromParts; simp only []; rw [if_neg e1, if_pos e2]
    · refine key (((ps.flatMap SeqPart.listExpand).foldl (seqStep .list) ([], [])).2
        ++ [.list ((ps.flatMap SeqPart.listExpand).foldl (seqStep .list) ([], [])).1]) ?_ ?_
      · unfold newListFromParts newSeqFromParts; simp only []; rw [if_neg e1, if_neg e2]
      · intro t ht
        simp only [List.mem_append, List.mem_singleton] at ht
        rcases ht with ht | rfl
        · exact h2 t ht
        · exact (fine_list C _).2 h1

theorem fine_newTuple {C : Ident.Classes} (ps : List SeqPart) (h : ∀ p ∈ ps, p.Fine C) :
    (newTupleFromParts ps).Fine C := by
  have hps : ∀ p ∈ ps.flatMap SeqPart.tupleExpand, p.Fine C := by
    intro p hp
    obtain ⟨q, hq, hp⟩ := List.mem_flatMap.1 hp
    cases q with
    | item t => simp [SeqPart.tupleExpand] at hp; subst hp; exact h _ hq
    | splice t => exact fine_tupleParts t (h _ hq) p hp
  obtain ⟨h1, h2⟩ := fine_fold (mk := .tuple) (fun ts h => (fine_tuple C ts).2 h) _ hps ([], [])
    (by simp) (by simp)
  have key : ∀ ts, newTupleFromParts ps = .tupleConcat ts → (∀ t ∈ ts, t.Fine C) →
      (newTupleFromParts ps).Fine C := by
    intro ts he ht
    rw [he]
    exact ⟨⟨(losslessTerms_iff C ts).2 (fun t h => (ht t h).1), ps, he.symm⟩,
      (builtTerms_iff ts).2 (fun t h => (ht t h).2)⟩
  by_cases e1 : ((ps.flatMap SeqPart.tupleExpand).foldl (seqStep .tuple) ([], [])).2.isEmpty = true
  · have : newTupleFromParts ps
        = .tuple ((ps.flatMap SeqPart.tupleExpand).foldl (seqStep .tuple) ([], [])).1 := by
      unfold newTupleFromParts newSeqFromParts; simp only []; rw [if_pos e1]
    rw [this]; exact (fine_tuple C _).2 h1
  · by_cases e2 : ((ps.flatMap SeqPart.tupleExpand).foldl (seqStep .tuple) ([], [])).1.isEmpty = true
    · refine key _ ?_ h2
      unfold newTupleFromParts newSeqFromParts; simp only []; rw [if_neg e1, if_pos e2]
    · refine key (((ps.flatMap SeqPart.tupleExpand).foldl (seqStep .tuple) ([], [])).2
        ++ [.tuple ((ps.flatMap SeqPart.tupleExpand).foldl (seqStep .tuple) ([], [])).1]) ?_ ?_
      · unfold newTupleFromParts newSeqFromParts; simp only []; rw [if_neg e1, if_neg e2]
      · intro t ht
        simp only [List.mem_append, List.mem_singleton] at ht
        rcases ht with ht | rfl
        · exact h2 t ht
        · exact (fine_tuple C _).2 h1

theorem importName_good {C : Ident.Classes} (hd : C.word '.' = false) {s e i : String}
    (h : importName C s = some (e, i)) (he : e ≠ "core") : GoodName C e i := by
  unfold importName at h
  cases hn : Ident.IdentList.new C s.toList with
  | none => rw [hn] at h; simp at h
  | some n =>
    rw [hn] at h; simp only [] at h
    obtain ⟨rfl, cs, hcs⟩ := (Ident.C41_new_iff C _ _).1 hn
    have hsp := Ident.C41_split_last C hd cs _ hcs
    rcases List.eq_nil_or_concat cs with rfl | ⟨ds, last, rfl⟩
    · exact absurd rfl hcs.1
    · by_cases hds : ds = []
      · subst hds
        rw [hsp.1 (by simp)] at h; simp at h
      · obtain ⟨p, hp, hpath, _⟩ := hsp.2 ds last (by simp) hds
        rw [hp] at h
        simp only [Option.some.injEq, Prod.mk.injEq] at h
        obtain ⟨rfl, rfl⟩ := h
        exact ⟨⟨ds, by simpa using hpath⟩, by
          have := hcs.2.1 last (by simp)
          simpa using this, he⟩

section
variable {E : ImportEnv} {bnd : Nat → Option Bound} {decl : Nat → Option Term}
  (hC : E.classes.word '.' = false) (hcore : ∀ i, E.types "core" i = none)
  (hdecl : ∀ i d, decl i = some d → LosslessParam E.classes d ∧ d.built = true)

theorem fine_newVarUse {C : Ident.Classes} {i : Nat} {d : Term}
    (h : LosslessParam C d ∧ d.built = true) : (Term.newVarUse i d).Fine C := by
  unfold Term.newVarUse
  split
  · exact ⟨trivial, rfl⟩
  · exact ⟨trivial, h.2⟩

theorem fine_runtime {C : Ident.Classes} {t : Ty} (h : t.Lossless C ∧ t.built = true) :
    (Term.runtime t).Fine C := h

theorem fine_newSum {C : Ident.Classes} {rows : List (List RTy)}
    (h : LosslessRows C rows ∧ builtRows rows = true) :
    (Ty.newSum rows).Lossless C ∧ (Ty.newSum rows).built = true := by
  refine ⟨?_, built_newSum h.2⟩
  unfold Ty.newSum
  split
  · trivial
  · exact h.1

include hC hcore hdecl

mutual
theorem imported_term (b : Bound) : ∀ (m : MTerm) (t : Term), m.fits →
    importTerm E bnd decl b m = some t →
    (t = .runtimeType b ∨ t.Lossless E.classes) ∧ t.built = true
  | .wildcard, t, _, h => by simp [importTerm] at h
  | .func, t, _, h => by simp [importTerm] at h
  | .var i, t, _, h => by
    simp only [importTerm, Option.map_eq_some_iff] at h
    obtain ⟨d, hd, rfl⟩ := h
    exact ⟨.inr (fine_newVarUse (hdecl i d hd)).1, (fine_newVarUse (hdecl i d hd)).2⟩
  | .list ps, t, hf, h => by
    simp only [importTerm, Option.map_eq_some_iff] at h
    obtain ⟨xs, hx, rfl⟩ := h
    have := fine_newList xs (imported_parts ps xs hf hx)
    exact ⟨.inr this.1, this.2⟩
  | .tuple ps, t, hf, h => by
    simp only [importTerm, Option.map_eq_some_iff] at h
    obtain ⟨xs, hx, rfl⟩ := h
    have := fine_newTuple xs (imported_parts ps xs hf hx)
    exact ⟨.inr this.1, this.2⟩
  | .str s, t, _, h => by simp only [importTerm, Option.some.injEq] at h; subst h; exact ⟨.inr trivial, rfl⟩
  | .nat s, t, _, h => by simp only [importTerm, Option.some.injEq] at h; subst h; exact ⟨.inr trivial, rfl⟩
  | .bytes s, t, _, h => by simp only [importTerm, Option.some.injEq] at h; subst h; exact ⟨.inr trivial, rfl⟩
  | .float s, t, _, h => by simp only [importTerm, Option.some.injEq] at h; subst h; exact ⟨.inr trivial, rfl⟩
  | .apply s [], t, hf, h => by
    rw [importTerm] at h
    have hc := imported_custom s [] hf
    split at h
    · simp only [Option.some.injEq] at h; subst h; exact ⟨.inr trivial, rfl⟩
    split at h
    · simp only [Option.some.injEq] at h; subst h; exact ⟨.inr rfl, rfl⟩
    split at h
    · simp only [Option.some.injEq] at h; subst h; exact ⟨.inr trivial, rfl⟩
    split at h
    · simp only [Option.some.injEq] at h; subst h; exact ⟨.inr trivial, rfl⟩
    split at h
    · simp only [Option.some.injEq] at h; subst h; exact ⟨.inl rfl, rfl⟩
    split at h
    · simp only [Option.some.injEq] at h; subst h; exact ⟨.inr trivial, rfl⟩
    split at h
    · simp at h
    obtain ⟨x, hx, rfl⟩ := Option.map_eq_some_iff.1 h
    have := fine_runtime (hc x hx)
    exact ⟨.inr this.1, this.2⟩
  | .apply s [u], t, hf, h => by
    rw [importTerm] at h
    have hc := imported_custom s [u] hf
    have hty := imported_type u
    have htm := imported_term .linear u
    have hvs := imported_variants u
    simp only [MTerm.fits, fitsArgs] at hf
    split at h
    · obtain ⟨x, hx, rfl⟩ := Option.map_eq_some_iff.1 h
      exact ⟨.inr (hty x hf.1 hx).1, (hty x hf.1 hx).2⟩
    split at h
    · obtain ⟨x, hx, rfl⟩ := Option.map_eq_some_iff.1 h
      have := htm x hf.1 hx
      refine ⟨.inr ?_, this.2⟩
      rcases this.1 with rfl | h
      · exact rfl
      · exact h
    split at h
    · obtain ⟨x, hx, rfl⟩ := Option.map_eq_some_iff.1 h
      have := htm x hf.1 hx
      refine ⟨.inr ?_, this.2⟩
      rcases this.1 with rfl | h
      · exact rfl
      · exact h
    split at h
    · obtain ⟨x, hx, rfl⟩ := Option.map_eq_some_iff.1 h
      have := fine_runtime (fine_newSum (hvs x hf.1 hx))
      exact ⟨.inr this.1, this.2⟩
    split at h
    · simp at h
    obtain ⟨x, hx, rfl⟩ := Option.map_eq_some_iff.1 h
    have := fine_runtime (hc x hx)
    exact ⟨.inr this.1, this.2⟩
  | .apply s [u, v], t, hf, h => by
    rw [importTerm] at h
    have hc := imported_custom s [u, v] hf
    have hr1 := imported_row u
    have hr2 := imported_row v
    simp only [MTerm.fits, fitsArgs] at hf
    split at h
    · cases h1 : importRow E bnd decl u with
      | none => rw [h1] at h; simp at h
      | some i =>
        cases h2 : importRow E bnd decl v with
        | none => rw [h1, h2] at h; simp at h
        | some o =>
          rw [h1, h2] at h
          simp only [Option.some.injEq] at h; subst h
          have a := hr1 i hf.1 h1
          have c := hr2 o hf.2.1 h2
          exact ⟨.inr ⟨a.1, c.1⟩, by simp [Term.built, Ty.built, a.2, c.2]⟩
    obtain ⟨x, hx, rfl⟩ := Option.map_eq_some_iff.1 h
    have := fine_runtime (hc x hx)
    exact ⟨.inr this.1, this.2⟩
  | .apply s (u :: v :: w :: args), t, hf, h => by
    rw [importTerm] at h
    have hc := imported_custom s (u :: v :: w :: args) hf
    obtain ⟨x, hx, rfl⟩ := Option.map_eq_some_iff.1 h
    have := fine_runtime (hc x hx)
    exact ⟨.inr this.1, this.2⟩
termination_by m => (sizeOf m, 0)
theorem imported_parts : ∀ (ps : List MPart) (xs : List SeqPart), fitsParts ps →
    importParts E bnd decl ps = some xs → ∀ p ∈ xs, p.Fine E.classes
  | [], xs, _, h => by simp only [importParts, Option.some.injEq] at h; subst h; simp
  | .item t :: ps, xs, hf, h => by
    rw [importParts] at h
    have htm := imported_term .linear t
    have hps := imported_parts ps
    simp only [fitsParts] at hf
    cases h1 : importTerm E bnd decl .linear t with
    | none => rw [h1] at h; simp at h
    | some x =>
      cases h2 : importParts E bnd decl ps with
      | none => rw [h1, h2] at h; simp at h
      | some ys =>
        rw [h1, h2] at h
        simp only [Option.some.injEq] at h; subst h
        intro p hp
        rcases List.mem_cons.1 hp with rfl | hp
        · have := htm x hf.1 h1
          refine ⟨?_, this.2⟩
          rcases this.1 with rfl | h
          · exact rfl
          · exact h
        · exact hps ys hf.2 h2 p hp
  | .splice t :: ps, xs, hf, h => by
    rw [importParts] at h
    have htm := imported_term .linear t
    have hps := imported_parts ps
    simp only [fitsParts] at hf
    cases h1 : importTerm E bnd decl .linear t with
    | none => rw [h1] at h; simp at h
    | some x =>
      cases h2 : importParts E bnd decl ps with
      | none => rw [h1, h2] at h; simp at h
      | some ys =>
        rw [h1, h2] at h
        simp only [Option.some.injEq] at h; subst h
        intro p hp
        rcases List.mem_cons.1 hp with rfl | hp
        · have := htm x hf.1 h1
          refine ⟨?_, this.2⟩
          rcases this.1 with rfl | h
          · exact rfl
          · exact h
        · exact hps ys hf.2 h2 p hp
termination_by m => (sizeOf m, 0)
theorem imported_args : ∀ (ts : List MTerm) (xs : List Term), fitsArgs ts →
    importArgs E bnd decl ts = some xs → LosslessTerms E.classes xs ∧ builtTerms xs = true
  | [], xs, _, h => by
    simp only [importArgs, Option.some.injEq] at h; subst h; exact ⟨trivial, rfl⟩
  | t :: ts, xs, hf, h => by
    rw [importArgs] at h
    have htm := imported_term .linear t
    have hps := imported_args ts
    simp only [fitsArgs] at hf
    cases h1 : importTerm E bnd decl .linear t with
    | none => rw [h1] at h; simp at h
    | some x =>
      cases h2 : importArgs E bnd decl ts with
      | none => rw [h1, h2] at h; simp at h
      | some ys =>
        rw [h1, h2] at h
        simp only [Option.some.injEq] at h; subst h
        have := htm x hf.1 h1
        have ht := hps ys hf.2 h2
        refine ⟨⟨?_, ht.1⟩, by simp [builtTerms, this.2, ht.2]⟩
        rcases this.1 with rfl | h
        · exact rfl
        · exact h
termination_by m => (sizeOf m, 0)
theorem imported_custom (s : String) : ∀ (args : List MTerm), fitsArgs args →
    ∀ t, importCustom E bnd decl s args = some t → t.Lossless E.classes ∧ t.built = true
  | args, hf, t, h => by
    rw [importCustom] at h
    have hargs := imported_args args
    cases h1 : importArgs E bnd decl args with
    | none => rw [h1] at h; simp at h
    | some xs =>
      cases h2 : importName E.classes s with
      | none => rw [h1, h2] at h; simp at h
      | some ei =>
        obtain ⟨e, i⟩ := ei
        rw [h1, h2] at h
        simp only [] at h
        cases h3 : E.types e i with
        | none => rw [h3] at h; simp at h
        | some D =>
          rw [h3] at h
          obtain ⟨b, _, rfl⟩ := Option.map_eq_some_iff.1 h
          have ha := hargs xs hf h1
          refine ⟨⟨importName_good hC h2 ?_, ha.1⟩, ha.2⟩
          rintro rfl
          rw [hcore] at h3; simp at h3
termination_by args => (sizeOf args, 1)
theorem imported_type : ∀ (m : MTerm) (t : Ty), m.fits → importType E bnd decl m = some t →
    t.Lossless E.classes ∧ t.built = true
  | .wildcard, t, _, h => by simp [importType] at h
  | .func, t, _, h => by simp [importType] at h
  | .list _, t, _, h => by simp [importType] at h
  | .tuple _, t, _, h => by simp [importType] at h
  | .str _, t, _, h => by simp [importType] at h
  | .nat _, t, _, h => by simp [importType] at h
  | .bytes _, t, _, h => by simp [importType] at h
  | .float _, t, _, h => by simp [importType] at h
  | .var i, t, _, h => by
    simp only [importType, Option.map_eq_some_iff] at h
    obtain ⟨b, _, rfl⟩ := h
    exact ⟨trivial, rfl⟩
  | .apply s [], t, hf, h => by
    rw [importType] at h
    have hc := imported_custom s [] hf
    split at h
    · simp at h
    exact hc t h
  | .apply s [u], t, hf, h => by
    rw [importType] at h
    have hc := imported_custom s [u] hf
    have hvs := imported_variants u
    simp only [MTerm.fits, fitsArgs] at hf
    split at h
    · obtain ⟨x, hx, rfl⟩ := Option.map_eq_some_iff.1 h
      exact fine_newSum (hvs x hf.1 hx)
    split at h
    · simp at h
    exact hc t h
  | .apply s [u, v], t, hf, h => by
    rw [importType] at h
    have hc := imported_custom s [u, v] hf
    have hr1 := imported_row u
    have hr2 := imported_row v
    simp only [MTerm.fits, fitsArgs] at hf
    split at h
    · cases h1 : importRow E bnd decl u with
      | none => rw [h1] at h; simp at h
      | some i =>
        cases h2 : importRow E bnd decl v with
        | none => rw [h1, h2] at h; simp at h
        | some o =>
          rw [h1, h2] at h
          simp only [Option.some.injEq] at h; subst h
          have a := hr1 i hf.1 h1
          have c := hr2 o hf.2.1 h2
          exact ⟨⟨a.1, c.1⟩, by simp [Ty.built, a.2, c.2]⟩
    exact hc t h
  | .apply s (u :: v :: w :: args), t, hf, h => by
    rw [importType] at h
    exact imported_custom s (u :: v :: w :: args) hf t h
termination_by m => (sizeOf m, 0)
theorem imported_variants : ∀ (m : MTerm) (rows : List (List RTy)), m.fits →
    importVariants E bnd decl m = some rows → LosslessRows E.classes rows ∧ builtRows rows = true
  | .list ps, rows, hf, h => by
    rw [importVariants] at h
    exact imported_variantParts ps rows hf h
  | .wildcard, t, _, h => by simp [importVariants] at h
  | .func, t, _, h => by simp [importVariants] at h
  | .var _, t, _, h => by simp [importVariants] at h
  | .apply _ _, t, _, h => by simp [importVariants] at h
  | .tuple _, t, _, h => by simp [importVariants] at h
  | .str _, t, _, h => by simp [importVariants] at h
  | .nat _, t, _, h => by simp [importVariants] at h
  | .bytes _, t, _, h => by simp [importVariants] at h
  | .float _, t, _, h => by simp [importVariants] at h
termination_by m => (sizeOf m, 0)
theorem imported_variantParts : ∀ (ps : List MPart) (rows : List (List RTy)), fitsParts ps →
    importVariantParts E bnd decl ps = some rows →
    LosslessRows E.classes rows ∧ builtRows rows = true
  | [], rows, _, h => by
    simp only [importVariantParts, Option.some.injEq] at h; subst h; exact ⟨trivial, rfl⟩
  | .item t :: ps, rows, hf, h => by
    rw [importVariantParts] at h
    have htm := imported_row t
    have hps := imported_variantParts ps
    simp only [fitsParts] at hf
    cases h1 : importRow E bnd decl t with
    | none => rw [h1] at h; simp at h
    | some x =>
      cases h2 : importVariantParts E bnd decl ps with
      | none => rw [h1, h2] at h; simp at h
      | some ys =>
        rw [h1, h2] at h
        simp only [Option.some.injEq] at h; subst h
        have a := htm x hf.1 h1
        have c := hps ys hf.2 h2
        exact ⟨⟨a.1, c.1⟩, by simp [builtRows, a.2, c.2]⟩
  | .splice t :: ps, rows, hf, h => by
    rw [importVariantParts] at h
    have htm := imported_variants t
    have hps := imported_variantParts ps
    simp only [fitsParts] at hf
    cases h1 : importVariants E bnd decl t with
    | none => rw [h1] at h; simp at h
    | some x =>
      cases h2 : importVariantParts E bnd decl ps with
      | none => rw [h1, h2] at h; simp at h
      | some ys =>
        rw [h1, h2] at h
        simp only [Option.some.injEq] at h; subst h
        have a := htm x hf.1 h1
        have c := hps ys hf.2 h2
        exact ⟨(losslessRows_append _ _ _).2 ⟨a.1, c.1⟩, by rw [builtRows_append, a.2, c.2]; rfl⟩
termination_by m => (sizeOf m, 0)
theorem imported_row : ∀ (m : MTerm) (row : List RTy), m.fits →
    importRow E bnd decl m = some row → LosslessRow E.classes row ∧ builtRow row = true
  | .list ps, row, hf, h => by
    rw [importRow] at h
    exact imported_rowParts ps row hf h
  | .var i, row, hf, h => by
    simp only [importRow, Option.some.injEq] at h; subst h
    exact ⟨⟨⟨rfl, hf⟩, trivial⟩, rfl⟩
  | .wildcard, t, _, h => by simp [importRow] at h
  | .func, t, _, h => by simp [importRow] at h
  | .apply _ _, t, _, h => by simp [importRow] at h
  | .tuple _, t, _, h => by simp [importRow] at h
  | .str _, t, _, h => by simp [importRow] at h
  | .nat _, t, _, h => by simp [importRow] at h
  | .bytes _, t, _, h => by simp [importRow] at h
  | .float _, t, _, h => by simp [importRow] at h
termination_by m => (sizeOf m, 0)
theorem imported_rowParts : ∀ (ps : List MPart) (row : List RTy), fitsParts ps →
    importRowParts E bnd decl ps = some row → LosslessRow E.classes row ∧ builtRow row = true
  | [], row, _, h => by
    simp only [importRowParts, Option.some.injEq] at h; subst h; exact ⟨trivial, rfl⟩
  | .item t :: ps, row, hf, h => by
    rw [importRowParts] at h
    have htm := imported_type t
    have hps := imported_rowParts ps
    simp only [fitsParts] at hf
    cases h1 : importType E bnd decl t with
    | none => rw [h1] at h; simp at h
    | some x =>
      cases h2 : importRowParts E bnd decl ps with
      | none => rw [h1, h2] at h; simp at h
      | some ys =>
        rw [h1, h2] at h
        simp only [Option.some.injEq] at h; subst h
        have a := htm x hf.1 h1
        have c := hps ys hf.2 h2
        exact ⟨⟨a.1, c.1⟩, by simp [builtRow, RTy.built, a.2, c.2]⟩
  | .splice t :: ps, row, hf, h => by
    rw [importRowParts] at h
    have htm := imported_row t
    have hps := imported_rowParts ps
    simp only [fitsParts] at hf
    cases h1 : importRow E bnd decl t with
    | none => rw [h1] at h; simp at h
    | some x =>
      cases h2 : importRowParts E bnd decl ps with
      | none => rw [h1, h2] at h; simp at h
      | some ys =>
        rw [h1, h2] at h
        simp only [Option.some.injEq] at h; subst h
        have a := htm x hf.1 h1
        have c := hps ys hf.2 h2
        exact ⟨(losslessRow_append _ _ _).2 ⟨a.1, c.1⟩, by rw [builtRow_append, a.2, c.2]; rfl⟩
termination_by m => (sizeOf m, 0)
end

end

end Verif.Types
