import Verif.Types.JsonLemmas
import Mathlib.Logic.Relation
/-
Lemmas on the readers of types and terms: the bound on the recursion does not matter, what is read
is well formed, and the order of the members of an object does not matter.
-/
namespace Verif.Types

/-! ## The bound on the recursion -/

theorem field_mem {k : String} {ms : List (String × Json)} {j : Json} (h : field k ms = some j) :
    (k, j) ∈ ms := by
  unfold field at h
  split at h
  · next a v e =>
    cases h
    have hm : (a, j) ∈ ms.filter (fun p => p.1 == k) := by rw [e]; simp
    have := List.mem_filter.mp hm
    have ha : a = k := by simpa using this.2
    rw [← ha]
    exact this.1
  · cases h

theorem depthMembers_mem {k : String} {ms : List (String × Json)} {j : Json} (h : (k, j) ∈ ms) :
    j.depth ≤ depthMembers ms := by
  induction ms with
  | nil => simp at h
  | cons m ms ih =>
    obtain ⟨a, b⟩ := m
    simp only [depthMembers]
    rcases List.mem_cons.mp h with h | h
    · cases h; omega
    · have := ih h; omega

theorem depthElems_mem {js : List Json} {j : Json} (h : j ∈ js) : j.depth ≤ depthElems js := by
  induction js with
  | nil => simp at h
  | cons m ms ih =>
    simp only [depthElems]
    rcases List.mem_cons.mp h with h | h
    · cases h; omega
    · have := ih h; omega

theorem readAll_congr {α : Type} {f g : Json → Option α} {js : List Json}
    (h : ∀ j ∈ js, f j = g j) : readAll f js = readAll g js := by
  induction js with
  | nil => rfl
  | cons j js ih =>
    simp only [readAll]
    rw [h j (by simp), ih (fun x hx => h x (by simp [hx]))]

theorem readVec_congr {α : Type} {f g : Json → Option α} {j : Json}
    (h : ∀ k, k.depth < j.depth → f k = g k) : readVec f j = readVec g j := by
  cases j <;> try rfl
  next js =>
  refine readAll_congr (fun k hk => h k ?_)
  have := depthElems_mem hk
  simp only [Json.depth]; omega

theorem readField_congr {α : Type} {f g : Json → Option α} {k : String}
    {ms : List (String × Json)}
    (h : ∀ j, j.depth ≤ depthMembers ms → f j = g j) : readField f k ms = readField g k ms := by
  unfold readField
  cases e : field k ms with
  | none => rfl
  | some j => exact h j (depthMembers_mem (field_mem e))

theorem readArg_congr {f f' : Json → Option Term} {g g' : Json → Option RTy}
    {ms : List (String × Json)}
    (hf : ∀ j, j.depth ≤ depthMembers ms → f j = f' j)
    (hg : ∀ j, j.depth ≤ depthMembers ms → g j = g' j) : readArg f g ms = readArg f' g' ms := by
  have e1 : ∀ k, readField (readVec f) k ms = readField (readVec f') k ms := fun k =>
    readField_congr (fun j hj => readVec_congr (fun x hx => hf x (by omega)))
  have e2 : ∀ k, readField (fun j => RTy.asTy (g j)) k ms =
      readField (fun j => RTy.asTy (g' j)) k ms := fun k =>
    readField_congr (fun j hj => by rw [hg j hj])
  have e3 : ∀ k, readField f k ms = readField f' k ms := fun k => readField_congr hf
  unfold readArg
  simp only [e1, e2, e3]

theorem readParam_congr {f f' : Json → Option Term} {g g' : Json → Option RTy}
    {ms : List (String × Json)}
    (hf : ∀ j, j.depth ≤ depthMembers ms → f j = f' j)
    (hg : ∀ j, j.depth ≤ depthMembers ms → g j = g' j) :
    readParam f g ms = readParam f' g' ms := by
  have e1 : ∀ k, readField (readArrayOrTerm f) k ms = readField (readArrayOrTerm f') k ms :=
    fun k => readField_congr (fun j hj => by
      unfold readArrayOrTerm
      rw [readVec_congr (fun x hx => hf x (by omega)), hf j hj])
  have e2 : ∀ k, readField (fun j => RTy.asTy (g j)) k ms =
      readField (fun j => RTy.asTy (g' j)) k ms := fun k =>
    readField_congr (fun j hj => by rw [hg j hj])
  have e3 : ∀ k, readField f k ms = readField f' k ms := fun k => readField_congr hf
  unfold readParam
  simp only [e1, e2, e3]

theorem readSer_congr {f f' : Json → Option Term} {g g' : Json → Option RTy}
    {ms : List (String × Json)}
    (hf : ∀ j, j.depth ≤ depthMembers ms → f j = f' j)
    (hg : ∀ j, j.depth ≤ depthMembers ms → g j = g' j) : readSer f g ms = readSer f' g' ms := by
  have e1 : ∀ k, readField (readVec f) k ms = readField (readVec f') k ms := fun k =>
    readField_congr (fun j hj => readVec_congr (fun x hx => hf x (by omega)))
  have e2 : ∀ k, readField (readVec g) k ms = readField (readVec g') k ms := fun k =>
    readField_congr (fun j hj => readVec_congr (fun x hx => hg x (by omega)))
  have e3 : ∀ k, readField (readVec (readVec g)) k ms = readField (readVec (readVec g')) k ms :=
    fun k => readField_congr (fun j hj => readVec_congr (fun x hx =>
      readVec_congr (fun y hy => hg y (by omega))))
  unfold readSer
  simp only [e1, e2, e3]

theorem read_stable : ∀ (n m : Nat) (j : Json), j.depth ≤ n → j.depth ≤ m →
    readTerm n j = readTerm m j ∧ readElem n j = readElem m j := by
  intro n
  induction n with
  | zero =>
    intro m j hn hm
    cases j <;> simp only [Json.depth] at hn
    all_goals first | omega | (cases m <;> simp [readTerm, readElem])
  | succ n ih =>
    intro m j hn hm
    cases j with
    | obj ms =>
      simp only [Json.depth] at hn hm
      obtain ⟨m, rfl⟩ : ∃ k, m = k + 1 := ⟨m - 1, by omega⟩
      have hf : ∀ j : Json, j.depth ≤ depthMembers ms → readTerm n j = readTerm m j :=
        fun j hj => (ih m j (by omega) (by omega)).1
      have hg : ∀ j : Json, j.depth ≤ depthMembers ms → readElem n j = readElem m j :=
        fun j hj => (ih m j (by omega) (by omega)).2
      simp only [readTerm, readElem]
      rw [readArg_congr hf hg, readParam_congr hf hg, readSer_congr hf hg]
      exact ⟨rfl, rfl⟩
    | _ => cases m <;> simp [readTerm, readElem]

/-- More recursion than the depth of the document changes nothing. -/
theorem readTerm_stable {n : Nat} {j : Json} (h : j.depth ≤ n) : readTerm n j = j.toTerm :=
  (read_stable n j.depth j h (Nat.le_refl _)).1
/-- See `readTerm_stable`. -/
theorem readElem_stable {n : Nat} {j : Json} (h : j.depth ≤ n) : readElem n j = j.toElem :=
  (read_stable n j.depth j h (Nat.le_refl _)).2

/-! ## What is read is well formed -/

theorem readAll_forall {α : Type} {f : Json → Option α} {P : α → Prop}
    (h : ∀ j x, f j = some x → P x) {js : List Json} {xs : List α}
    (e : readAll f js = some xs) : ∀ x ∈ xs, P x := by
  induction js generalizing xs with
  | nil => cases e; simp
  | cons j js ih =>
    simp only [readAll] at e
    split at e
    · next x xs' h1 h2 =>
      cases e
      intro y hy
      rcases List.mem_cons.mp hy with rfl | hy
      · exact h j _ h1
      · exact ih h2 y hy
    · cases e

theorem readVec_forall {α : Type} {f : Json → Option α} {P : α → Prop}
    (h : ∀ j x, f j = some x → P x) {j : Json} {xs : List α}
    (e : readVec f j = some xs) : ∀ x ∈ xs, P x := by
  cases j <;> simp only [readVec, reduceCtorEq] at e
  exact readAll_forall h e

theorem readField_some {α : Type} {f : Json → Option α} {k : String} {ms : List (String × Json)}
    {x : α} (e : readField f k ms = some x) : ∃ j, f j = some x := by
  unfold readField at e
  split at e
  · exact ⟨_, e⟩
  · cases e

theorem natField_lt {lim : Nat} {k : String} {ms : List (String × Json)} {n : Nat}
    (e : natField lim k ms = some n) : n < lim := by
  unfold natField at e
  split at e
  · split at e
    · cases e; assumption
    · cases e
  · cases e

theorem asTy_some {o : Option RTy} {t : Ty} (e : RTy.asTy o = some t) : o = some (.ty t) := by
  unfold RTy.asTy at e
  split at e
  · cases e; rfl
  · cases e

theorem terms_ok {ts : List Term} (h : ∀ t ∈ ts, t.ok) :
    builtTerms ts = true ∧ everyTerm fitsHere (fun i => decide (i < 2 ^ 64)) ts = true ∧
      everyTerm finiteHere (fun _ => true) ts = true := by
  simp only [builtTerms_iff, everyTerm_iff]
  exact ⟨fun t ht => (h t ht).1, fun t ht => (h t ht).2.1, fun t ht => (h t ht).2.2⟩

theorem row_ok {ts : List RTy} (h : ∀ t ∈ ts, t.ok) :
    builtRow ts = true ∧ everyElem fitsHere (fun i => decide (i < 2 ^ 64)) ts = true ∧
      everyElem finiteHere (fun _ => true) ts = true := by
  simp only [builtRow_iff, everyElem_iff]
  exact ⟨fun t ht => (h t ht).1, fun t ht => (h t ht).2.1, fun t ht => (h t ht).2.2⟩

theorem rows_ok {rs : List (List RTy)} (h : ∀ r ∈ rs, ∀ t ∈ r, t.ok) :
    builtRows rs = true ∧ everyRow fitsHere (fun i => decide (i < 2 ^ 64)) rs = true ∧
      everyRow finiteHere (fun _ => true) rs = true := by
  simp only [builtRows_iff, everyRow_iff]
  exact ⟨fun r hr t ht => (h r hr t ht).1, fun r hr t ht => (h r hr t ht).2.1,
    fun r hr t ht => (h r hr t ht).2.2⟩

theorem readArg_ok {f : Json → Option Term} {g : Json → Option RTy}
    (hf : ∀ j t, f j = some t → t.ok) (hg : ∀ j t, g j = some t → t.ok)
    {ms : List (String × Json)} {t : Term} (e : readArg f g ms = some t) : t.ok := by
  unfold readArg at e
  have hl : ∀ k ts, readField (readVec f) k ms = some ts → ∀ t ∈ ts, t.ok := fun k ts h => by
    obtain ⟨j, hj⟩ := readField_some h
    exact readVec_forall hf hj
  split at e
  · cases e
  · split at e
    · obtain ⟨x, hx, rfl⟩ := Option.map_eq_some_iff.mp e
      obtain ⟨j, hj⟩ := readField_some hx
      have := hg j _ (asTy_some hj)
      simpa [Term.ok, RTy.ok, Term.built, RTy.built, Term.fits, RTy.fits, Term.finite, RTy.finite,
        Term.every, RTy.every, fitsHere, finiteHere] using this
    split at e
    · obtain ⟨x, hx, rfl⟩ := Option.map_eq_some_iff.mp e
      have := natField_lt hx
      simp only [Term.ok, Term.built, Term.fits, Term.finite, Term.every, fitsHere, finiteHere,
        decide_eq_true_eq, and_true, true_and]
      exact this
    split at e
    · obtain ⟨x, hx, rfl⟩ := Option.map_eq_some_iff.mp e
      simp [Term.ok, Term.built, Term.fits, Term.finite, Term.every, fitsHere, finiteHere]
    split at e
    · obtain ⟨x, hx, rfl⟩ := Option.map_eq_some_iff.mp e
      unfold bytesField at hx
      split at hx
      · have := Base64.decode_lt _ _ hx
        simpa [Term.ok, Term.built, Term.fits, Term.finite, Term.every, fitsHere, finiteHere]
          using this
      · cases hx
    split at e
    · obtain ⟨x, hx, rfl⟩ := Option.map_eq_some_iff.mp e
      unfold floatField at hx
      split at hx
      · split at hx
        · next hfin =>
          cases hx
          have h64 : x < 2 ^ 64 := by
            simp only [finiteBits, decide_eq_true_eq] at hfin
            exact hfin.1
          simp only [Term.ok, Term.built, Term.fits, Term.finite, Term.every, fitsHere, finiteHere,
            decide_eq_true_eq, true_and]
          exact ⟨h64, hfin⟩
        · cases hx
      · cases hx
    split at e
    · obtain ⟨x, hx, rfl⟩ := Option.map_eq_some_iff.mp e
      have := terms_ok (hl _ _ hx)
      simpa [Term.ok, Term.built, Term.fits, Term.finite, Term.every, fitsHere, finiteHere]
        using this
    split at e
    · obtain ⟨x, hx, rfl⟩ := Option.map_eq_some_iff.mp e
      have := terms_ok (hl _ _ hx)
      simpa [Term.ok, Term.built, Term.fits, Term.finite, Term.every, fitsHere, finiteHere]
        using this
    split at e
    · obtain ⟨x, hx, rfl⟩ := Option.map_eq_some_iff.mp e
      have := terms_ok (hl _ _ hx)
      simpa [Term.ok, Term.built, Term.fits, Term.finite, Term.every, fitsHere, finiteHere]
        using this
    split at e
    · obtain ⟨x, hx, rfl⟩ := Option.map_eq_some_iff.mp e
      have := terms_ok (hl _ _ hx)
      simpa [Term.ok, Term.built, Term.fits, Term.finite, Term.every, fitsHere, finiteHere]
        using this
    split at e
    · split at e
      · next i d hi hd =>
        cases e
        obtain ⟨j, hj⟩ := readField_some hd
        have h1 := natField_lt hi
        have h2 := hf _ _ hj
        simp only [Term.ok, Term.fits, Term.finite] at h2
        simp only [Term.ok, Term.built, Term.fits, Term.finite, Term.every, fitsHere, finiteHere,
          Bool.and_eq_true, decide_eq_true_eq, true_and]
        exact ⟨h2.1, ⟨h1, h2.2.1⟩, h2.2.2⟩
      · cases e
    · cases e

theorem readParam_ok {f : Json → Option Term} {g : Json → Option RTy}
    (hf : ∀ j t, f j = some t → t.ok) (hg : ∀ j t, g j = some t → t.ok)
    {ms : List (String × Json)} {t : Term} (e : readParam f g ms = some t) : t.ok := by
  unfold readParam at e
  split at e
  · cases e
  · split at e
    · obtain ⟨x, hx, rfl⟩ := Option.map_eq_some_iff.mp e
      simp [Term.ok, Term.built, Term.fits, Term.finite, Term.every, fitsHere, finiteHere]
    split at e
    · obtain ⟨x, hx, rfl⟩ := Option.map_eq_some_iff.mp e
      unfold ubField at hx
      split at hx
      · cases hx
        simp [Term.ok, Term.built, Term.fits, Term.finite, Term.every, fitsHere, finiteHere]
      · split at hx
        · next hn =>
          cases hx
          simp only [Term.ok, Term.built, Term.fits, Term.finite, Term.every, fitsHere, finiteHere,
            decide_eq_true_eq, true_and, and_true]
          exact hn
        · cases hx
      · cases hx
    split at e
    · cases e
      simp [Term.ok, Term.built, Term.fits, Term.finite, Term.every, fitsHere, finiteHere]
    split at e
    · cases e
      simp [Term.ok, Term.built, Term.fits, Term.finite, Term.every, fitsHere, finiteHere]
    split at e
    · cases e
      simp [Term.ok, Term.built, Term.fits, Term.finite, Term.every, fitsHere, finiteHere]
    split at e
    · cases e
      simp [Term.ok, Term.built, Term.fits, Term.finite, Term.every, fitsHere, finiteHere]
    split at e
    · obtain ⟨x, hx, rfl⟩ := Option.map_eq_some_iff.mp e
      obtain ⟨j, hj⟩ := readField_some hx
      have := hf j _ hj
      simpa [Term.ok, Term.built, Term.fits, Term.finite, Term.every, fitsHere, finiteHere]
        using this
    split at e
    · obtain ⟨x, hx, rfl⟩ := Option.map_eq_some_iff.mp e
      obtain ⟨j, hj⟩ := readField_some hx
      have : x.ok := by
        unfold readArrayOrTerm at hj
        split at hj
        · next ts hts =>
          cases hj
          have := terms_ok (readVec_forall hf hts)
          simpa [Term.ok, Term.built, Term.fits, Term.finite, Term.every, fitsHere, finiteHere]
            using this
        · exact hf j _ hj
      simpa [Term.ok, Term.built, Term.fits, Term.finite, Term.every, fitsHere, finiteHere]
        using this
    split at e
    · obtain ⟨x, hx, rfl⟩ := Option.map_eq_some_iff.mp e
      obtain ⟨j, hj⟩ := readField_some hx
      have := hg j _ (asTy_some hj)
      simpa [Term.ok, RTy.ok, Term.built, RTy.built, Term.fits, RTy.fits, Term.finite, RTy.finite,
        Term.every, RTy.every, fitsHere, finiteHere] using this
    · cases e

theorem every_newSum (p : Term → Bool) (q : Nat → Bool) {rows : List (List RTy)}
    (h : everyRow p q rows = true) : (Ty.newSum rows).every p q = true := by
  unfold Ty.newSum
  split
  · rfl
  · exact h

theorem readSer_ok {f : Json → Option Term} {g : Json → Option RTy}
    (hf : ∀ j t, f j = some t → t.ok) (hg : ∀ j t, g j = some t → t.ok)
    {ms : List (String × Json)} {t : RTy} (e : readSer f g ms = some t) : t.ok := by
  unfold readSer at e
  split at e
  · cases e
  · split at e
    · cases e; exact ⟨rfl, rfl, rfl⟩
    split at e
    · cases e; exact ⟨rfl, rfl, rfl⟩
    split at e
    · split at e
      · next i o hi ho =>
        cases e
        obtain ⟨ji, hi⟩ := readField_some hi
        obtain ⟨jo, ho⟩ := readField_some ho
        have hi := row_ok (readVec_forall hg hi)
        have ho := row_ok (readVec_forall hg ho)
        simp only [RTy.ok, RTy.built, Ty.built, RTy.fits, RTy.finite, RTy.every, Ty.every,
          Bool.and_eq_true]
        exact ⟨⟨hi.1, ho.1⟩, ⟨hi.2.1, ho.2.1⟩, hi.2.2, ho.2.2⟩
      · cases e
    split at e
    · split at e
      · cases e
      · split at e
        · obtain ⟨x, hx, rfl⟩ := Option.map_eq_some_iff.mp e
          have := natField_lt hx
          simpa [RTy.ok, RTy.built, Ty.built, RTy.fits, RTy.finite, RTy.every, Ty.every] using this
        · split at e
          · obtain ⟨x, hx, rfl⟩ := Option.map_eq_some_iff.mp e
            obtain ⟨j, hj⟩ := readField_some hx
            have h := rows_ok (readVec_forall (P := fun r => ∀ t ∈ r, RTy.ok t)
              (fun j r => readVec_forall hg) hj)
            exact ⟨built_newSum h.1, every_newSum _ _ h.2.1, every_newSum _ _ h.2.2⟩
          · cases e
    split at e
    · split at e
      · next hargs hb =>
        cases e
        obtain ⟨j, hj⟩ := readField_some hargs
        have := terms_ok (readVec_forall hf hj)
        simpa only [RTy.ok, RTy.built, Ty.built, RTy.fits, RTy.finite, RTy.every, Ty.every]
          using this
      · cases e
    split at e
    · split at e
      · cases e
        simp [RTy.ok, RTy.built, Ty.built, RTy.fits, RTy.finite, RTy.every, Ty.every]
      · cases e
    split at e
    · split at e
      · next hi hb =>
        cases e
        have := natField_lt hi
        simp only [RTy.ok, RTy.built, Ty.built, RTy.fits, RTy.finite, RTy.every, Ty.every,
          decide_eq_true_eq, true_and, and_true]
        exact this
      · cases e
    split at e
    · split at e
      · next hi hb =>
        cases e
        have := natField_lt hi
        simp only [RTy.ok, RTy.built, RTy.fits, RTy.finite, RTy.every,
          decide_eq_true_eq, true_and, and_true]
        exact this
      · cases e
    · cases e

theorem read_ok : ∀ (n : Nat) (j : Json), (∀ t, readTerm n j = some t → t.ok) ∧
    (∀ t, readElem n j = some t → t.ok) := by
  intro n
  induction n with
  | zero => intro j; cases j <;> simp [readTerm, readElem]
  | succ n ih =>
    intro j
    cases j with
    | obj ms =>
      have hf : ∀ j t, readTerm n j = some t → t.ok := fun j => (ih j).1
      have hg : ∀ j t, readElem n j = some t → t.ok := fun j => (ih j).2
      refine ⟨fun t e => ?_, fun t e => readSer_ok hf hg e⟩
      simp only [readTerm] at e
      split at e
      · next h => cases e; exact readArg_ok hf hg h
      · exact readParam_ok hf hg e
    | _ => simp [readTerm, readElem]

/-! ## Order of members and unknown members -/

/-- Not a string, number or `null`. -/
def Json.isNode : Json → Bool
  | .arr _ => true
  | .obj _ => true
  | _ => false

/-- Two values no reader of a part can tell apart. -/
def Alike (f : Json → Option Term) (g : Json → Option RTy) (j k : Json) : Prop :=
  j = k ∨ (j.isNode = true ∧ k.isNode = true ∧ f j = f k ∧ g j = g k ∧
    readVec f j = readVec f k ∧ readVec g j = readVec g k ∧
    readVec (readVec g) j = readVec (readVec g) k)

/-- No reader of a known member can tell the objects apart. -/
def MembersAlike (f : Json → Option Term) (g : Json → Option RTy)
    (ms ns : List (String × Json)) : Prop :=
  ∀ k ∈ knownMembers, (field k ms = none ∧ field k ns = none) ∨
    ∃ i j, field k ms = some i ∧ field k ns = some j ∧ Alike f g i j

section
variable {f : Json → Option Term} {g : Json → Option RTy} {ms ns : List (String × Json)}

theorem readField_alike {α : Type} {r : Json → Option α} (h : MembersAlike f g ms ns)
    (hr : ∀ i j, Alike f g i j → r i = r j) {k : String} (hk : k ∈ knownMembers) :
    readField r k ms = readField r k ns := by
  unfold readField
  rcases h k hk with ⟨h1, h2⟩ | ⟨i, j, h1, h2, h3⟩
  · rw [h1, h2]
  · rw [h1, h2]; exact hr i j h3

theorem strField_alike (h : MembersAlike f g ms ns) {k : String} (hk : k ∈ knownMembers) :
    strField k ms = strField k ns := by
  unfold strField
  rcases h k hk with ⟨h1, h2⟩ | ⟨i, j, h1, h2, rfl | h3⟩
  · rw [h1, h2]
  · rw [h1, h2]
  · rw [h1, h2]; cases i <;> cases j <;> simp_all [Json.isNode]

theorem natField_alike {lim : Nat} (h : MembersAlike f g ms ns) {k : String}
    (hk : k ∈ knownMembers) : natField lim k ms = natField lim k ns := by
  unfold natField
  rcases h k hk with ⟨h1, h2⟩ | ⟨i, j, h1, h2, rfl | h3⟩
  · rw [h1, h2]
  · rw [h1, h2]
  · rw [h1, h2]; cases i <;> cases j <;> simp_all [Json.isNode]

theorem ubField_alike (h : MembersAlike f g ms ns) {k : String} (hk : k ∈ knownMembers) :
    ubField k ms = ubField k ns := by
  unfold ubField
  rcases h k hk with ⟨h1, h2⟩ | ⟨i, j, h1, h2, rfl | h3⟩
  · rw [h1, h2]
  · rw [h1, h2]
  · rw [h1, h2]; cases i <;> cases j <;> simp_all [Json.isNode]

theorem floatField_alike (h : MembersAlike f g ms ns) {k : String} (hk : k ∈ knownMembers) :
    floatField k ms = floatField k ns := by
  unfold floatField
  rcases h k hk with ⟨h1, h2⟩ | ⟨i, j, h1, h2, rfl | h3⟩
  · rw [h1, h2]
  · rw [h1, h2]
  · rw [h1, h2]; cases i <;> cases j <;> simp_all [Json.isNode]

theorem boundField_alike (h : MembersAlike f g ms ns) {k : String} (hk : k ∈ knownMembers) :
    boundField k ms = boundField k ns := by
  unfold boundField
  rw [strField_alike h hk]

theorem bytesField_alike (h : MembersAlike f g ms ns) {k : String} (hk : k ∈ knownMembers) :
    bytesField k ms = bytesField k ns := by
  unfold bytesField
  rw [strField_alike h hk]

theorem Alike.term {i j : Json} (h : Alike f g i j) : f i = f j := by
  rcases h with rfl | h
  · rfl
  · exact h.2.2.1
theorem Alike.elem {i j : Json} (h : Alike f g i j) : g i = g j := by
  rcases h with rfl | h
  · rfl
  · exact h.2.2.2.1
theorem Alike.terms {i j : Json} (h : Alike f g i j) : readVec f i = readVec f j := by
  rcases h with rfl | h
  · rfl
  · exact h.2.2.2.2.1
theorem Alike.row {i j : Json} (h : Alike f g i j) : readVec g i = readVec g j := by
  rcases h with rfl | h
  · rfl
  · exact h.2.2.2.2.2.1
theorem Alike.rows {i j : Json} (h : Alike f g i j) :
    readVec (readVec g) i = readVec (readVec g) j := by
  rcases h with rfl | h
  · rfl
  · exact h.2.2.2.2.2.2

theorem readArg_alike (h : MembersAlike f g ms ns) : readArg f g ms = readArg f g ns := by
  unfold readArg
  rw [strField_alike h (k := "tya") (by decide),
    readField_alike (r := fun j => RTy.asTy (g j)) h (fun i j a => by rw [a.elem]) (k := "ty")
      (by decide),
    natField_alike h (k := "n") (by decide), strField_alike h (k := "arg") (by decide),
    bytesField_alike h (k := "value") (by decide), floatField_alike h (k := "value") (by decide),
    readField_alike (r := readVec f) h (fun i j a => a.terms) (k := "elems") (by decide),
    readField_alike (r := readVec f) h (fun i j a => a.terms) (k := "lists") (by decide),
    readField_alike (r := readVec f) h (fun i j a => a.terms) (k := "tuples") (by decide),
    natField_alike h (k := "idx") (by decide),
    readField_alike (r := f) h (fun i j a => a.term) (k := "cached_decl") (by decide)]

theorem readParam_alike (h : MembersAlike f g ms ns) : readParam f g ms = readParam f g ns := by
  unfold readParam
  rw [strField_alike h (k := "tp") (by decide), boundField_alike h (k := "b") (by decide),
    ubField_alike h (k := "bound") (by decide),
    readField_alike (r := f) h (fun i j a => a.term) (k := "param") (by decide),
    readField_alike (r := readArrayOrTerm f) h
      (fun i j a => by unfold readArrayOrTerm; rw [a.terms, a.term]) (k := "params") (by decide),
    readField_alike (r := fun j => RTy.asTy (g j)) h (fun i j a => by rw [a.elem]) (k := "ty")
      (by decide)]

theorem readSer_alike (h : MembersAlike f g ms ns) : readSer f g ms = readSer f g ns := by
  unfold readSer
  rw [strField_alike h (k := "t") (by decide), strField_alike h (k := "s") (by decide),
    readField_alike (r := readVec g) h (fun i j a => a.row) (k := "input") (by decide),
    readField_alike (r := readVec g) h (fun i j a => a.row) (k := "output") (by decide),
    natField_alike h (k := "size") (by decide),
    readField_alike (r := readVec (readVec g)) h (fun i j a => a.rows) (k := "rows") (by decide),
    strField_alike h (k := "extension") (by decide), strField_alike h (k := "id") (by decide),
    readField_alike (r := readVec f) h (fun i j a => a.terms) (k := "args") (by decide),
    boundField_alike h (k := "bound") (by decide), strField_alike h (k := "name") (by decide),
    natField_alike h (k := "i") (by decide), boundField_alike h (k := "b") (by decide)]

end

theorem field_perm {k : String} {ms ns : List (String × Json)} (h : ms.Perm ns) :
    field k ms = field k ns := by
  have hp := h.filter (fun p => p.1 == k)
  unfold field
  generalize ms.filter (fun p => p.1 == k) = a at hp
  generalize ns.filter (fun p => p.1 == k) = b at hp
  have hl := hp.length_eq
  match a, b with
  | [], [] => rfl
  | [x], [y] =>
    have : x = y := by simpa using hp
    rw [this]
  | _ :: _ :: _, _ :: _ :: _ => rfl
  | [], _ :: _ => simp at hl
  | _ :: _, [] => simp at hl
  | [_], _ :: _ :: _ => simp at hl
  | _ :: _ :: _, [_] => simp at hl

theorem field_member (k : String) (s : String) (pre post : List (String × Json)) (i j : Json) :
    field k (pre ++ (s, i) :: post) = field k (pre ++ (s, j) :: post) ∨
    (field k (pre ++ (s, i) :: post) = some i ∧ field k (pre ++ (s, j) :: post) = some j) := by
  unfold field
  simp only [List.filter_append, List.filter_cons]
  by_cases h : (s == k) = true
  · simp only [h, if_true]
    cases pre.filter (fun p => p.1 == k) with
    | nil =>
      cases post.filter (fun p => p.1 == k) with
      | nil => right; exact ⟨rfl, rfl⟩
      | cons a as => left; rfl
    | cons a as =>
      left
      cases as <;> rfl
  · simp only [h]
    left; rfl

theorem readAll_replace {α : Type} {r : Json → Option α} {i j : Json} (h : r i = r j)
    (pre post : List Json) : readAll r (pre ++ i :: post) = readAll r (pre ++ j :: post) := by
  induction pre with
  | nil => simp [readAll, h]
  | cons a as ih => simp only [List.cons_append, readAll, ih]

theorem obj_alike {ms ns : List (String × Json)}
    (h : ∀ n, MembersAlike (readTerm n) (readElem n) ms ns) (n : Nat) :
    Alike (readTerm n) (readElem n) (.obj ms) (.obj ns) := by
  right
  refine ⟨rfl, rfl, ?_, ?_, rfl, rfl, rfl⟩
  · cases n with
    | zero => simp [readTerm]
    | succ n =>
      simp only [readTerm]
      rw [readArg_alike (h n), readParam_alike (h n)]
  · cases n with
    | zero => simp [readElem]
    | succ n =>
      simp only [readElem]
      rw [readSer_alike (h n)]

theorem membersAlike_of_field {f : Json → Option Term} {g : Json → Option RTy}
    {ms ns : List (String × Json)} (h : ∀ k ∈ knownMembers, field k ms = field k ns) :
    MembersAlike f g ms ns := by
  intro k hk
  cases e : field k ms with
  | none => left; exact ⟨rfl, by rw [← h k hk, e]⟩
  | some v => right; exact ⟨v, v, rfl, by rw [← h k hk, e], .inl rfl⟩

theorem step_alike {j k : Json} (h : Json.Step j k) :
    ∀ n, Alike (readTerm n) (readElem n) j k := by
  induction h with
  | elem pre post _ ih =>
    intro n
    right
    refine ⟨rfl, rfl, ?_, ?_, ?_, ?_, ?_⟩
    · cases n <;> simp [readTerm]
    · cases n <;> simp [readElem]
    · exact readAll_replace (ih n).term pre post
    · exact readAll_replace (ih n).elem pre post
    · exact readAll_replace (ih n).row pre post
  | @member j k s pre post _ ih =>
    refine obj_alike (fun n key hk => ?_)
    rcases field_member key s pre post j k with e | ⟨e1, e2⟩
    · cases e' : field key (pre ++ (s, j) :: post) with
      | none => left; exact ⟨rfl, by rw [← e, e']⟩
      | some v => right; exact ⟨v, v, rfl, by rw [← e, e'], .inl rfl⟩
    · right; exact ⟨j, k, e1, e2, ih n⟩
  | perm hp => exact obj_alike (fun n => membersAlike_of_field (fun k _ => field_perm hp))
  | @extra s j ms hs =>
    refine obj_alike (fun n => membersAlike_of_field (fun k hk => ?_))
    have : (s == k) = false := by
      rw [beq_eq_false_iff_ne]
      rintro rfl
      exact hs hk
    simp [field, List.filter_cons, this]

end Verif.Types
