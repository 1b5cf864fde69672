/-
Abstract syntax of HUGR types and static terms.
Models `hugr-core/src/types.rs`, `types/type_param.rs`, `types/signature.rs`, `types/custom.rs`.
-/
namespace Verif.Types

/-- `TypeBound`, hugr-core/src/types.rs:117-134. -/
inductive Bound
  | copyable
  | linear
  deriving DecidableEq, Repr

mutual

/-- `Term`, hugr-core/src/types/type_param.rs:60-153.
`UpperBound(Option<NonZeroU64>)` (type_param.rs:31) is `Option Nat`; `u64` literals are `Nat`;
bytes are lists of `Nat`; floats are opaque bit patterns (`OrderedFloat` compares by value; the
identification of the NaN payloads and of the two zeros is not modelled).
`TermVar { idx, cached_decl }` (type_param.rs:268-271) is inlined in `variable`. -/
inductive Term
  | runtimeType (b : Bound)
  | staticType
  | boundedNatType (ub : Option Nat)
  | stringType
  | bytesType
  | floatType
  | listType (item : Term)
  | tupleType (items : Term)
  | runtime (ty : Ty)
  | boundedNat (n : Nat)
  | string (s : String)
  | bytes (bs : List Nat)
  | float (bits : Nat)
  | list (elems : List Term)
  | listConcat (lists : List Term)
  | tuple (elems : List Term)
  | tupleConcat (tuples : List Term)
  | variable (idx : Nat) (decl : Term)
  | constType (ty : Ty)

/-- `TypeBase<NoRV>`, hugr-core/src/types.rs:353-374 (`TypeEnum`), 412 (`TypeBase`).
`TypeEnum<NoRV>` has no `RowVar`.  `SumType` (types.rs:180-187) is inlined as two constructors.
The cached bound `TypeBase.1` is kept explicitly only for general sums: for every other
constructor the Rust code stores the bound that is already a field (`ext`, `alias`, `variable`) or
the constant `Copyable` (`function`, `sumUnit`), see `new_extension`, `new_var_use`,
`new_unit_sum`, `new` (types.rs:465-513).
`CustomType` (types/custom.rs:18-36) is inlined as `ext`; its weak reference to the extension is
modelled by the environment `Env`. -/
inductive Ty
  | ext (extension : String) (id : String) (args : List Term) (bound : Bound)
  | alias (name : String) (bound : Bound)
  | function (input output : List RTy)
  | variable (idx : Nat) (bound : Bound)
  | sumUnit (size : Nat)
  | sumGen (rows : List (List RTy)) (cached : Bound)

/-- `TypeBase<RowVariable>` (types.rs:420): a single type or a row variable
(`RowVariable(usize, TypeBound)`, types/row_var.rs:17). -/
inductive RTy
  | ty (t : Ty)
  | rowVar (idx : Nat) (bound : Bound)

end

/-- `TypeDefBound`, hugr-core/src/extension/type_def.rs:20-25. -/
inductive TypeDefBound
  | explicit (b : Bound)
  | fromParams (indices : List Nat)

/-- `TypeDef`, hugr-core/src/extension/type_def.rs:60-79; its own name and extension id are the
key under which it is found in the environment. -/
structure TypeDef where
  params : List Term
  bound : TypeDefBound

/-- What the weak `extension_ref`s resolve to: the definition of a type of an extension, if the
extension is alive and has such a type (`get_extension`, `get_type_def`, types/custom.rs:88-107).
Simplification: equal extension ids resolve to the same extension. -/
abbrev Env := String → String → Option TypeDef

/-! ## Induction principle with membership hypotheses -/

/-- Simultaneous induction over terms, types and row elements. -/
theorem syntax_induction {P : Term → Prop} {Q : Ty → Prop} {R : RTy → Prop}
    (runtimeType : ∀ b, P (.runtimeType b))
    (staticType : P .staticType)
    (boundedNatType : ∀ ub, P (.boundedNatType ub))
    (stringType : P .stringType)
    (bytesType : P .bytesType)
    (floatType : P .floatType)
    (listType : ∀ t, P t → P (.listType t))
    (tupleType : ∀ t, P t → P (.tupleType t))
    (runtime : ∀ t, Q t → P (.runtime t))
    (boundedNat : ∀ n, P (.boundedNat n))
    (string : ∀ s, P (.string s))
    (bytes : ∀ s, P (.bytes s))
    (float : ∀ s, P (.float s))
    (list : ∀ ts, (∀ t ∈ ts, P t) → P (.list ts))
    (listConcat : ∀ ts, (∀ t ∈ ts, P t) → P (.listConcat ts))
    (tuple : ∀ ts, (∀ t ∈ ts, P t) → P (.tuple ts))
    (tupleConcat : ∀ ts, (∀ t ∈ ts, P t) → P (.tupleConcat ts))
    (var : ∀ i d, P d → P (.variable i d))
    (constType : ∀ t, Q t → P (.constType t))
    (ext : ∀ e i args b, (∀ t ∈ args, P t) → Q (.ext e i args b))
    (alias : ∀ n b, Q (.alias n b))
    (function : ∀ i o, (∀ t ∈ i, R t) → (∀ t ∈ o, R t) → Q (.function i o))
    (tyVar : ∀ i b, Q (.variable i b))
    (sumUnit : ∀ n, Q (.sumUnit n))
    (sumGen : ∀ rows b, (∀ row ∈ rows, ∀ t ∈ row, R t) → Q (.sumGen rows b))
    (rty : ∀ t, Q t → R (.ty t))
    (rowVar : ∀ i b, R (.rowVar i b)) :
    (∀ t, P t) ∧ (∀ t, Q t) ∧ (∀ t, R t) := by
  have nilT : ∀ t ∈ ([] : List Term), P t := by simp
  have consT : ∀ (h : Term) (tl : List Term), P h → (∀ t ∈ tl, P t) → ∀ t ∈ h :: tl, P t := by
    intro h tl hh htl t ht
    rcases List.mem_cons.mp ht with rfl | ht
    · exact hh
    · exact htl _ ht
  have nilR : ∀ t ∈ ([] : List RTy), R t := by simp
  have consR : ∀ (h : RTy) (tl : List RTy), R h → (∀ t ∈ tl, R t) → ∀ t ∈ h :: tl, R t := by
    intro h tl hh htl t ht
    rcases List.mem_cons.mp ht with rfl | ht
    · exact hh
    · exact htl _ ht
  have nilL : ∀ row ∈ ([] : List (List RTy)), ∀ t ∈ row, R t := by simp
  have consL : ∀ (h : List RTy) (tl : List (List RTy)), (∀ t ∈ h, R t) →
      (∀ row ∈ tl, ∀ t ∈ row, R t) → ∀ row ∈ h :: tl, ∀ t ∈ row, R t := by
    intro h tl hh htl t ht
    rcases List.mem_cons.mp ht with rfl | ht
    · exact hh
    · exact htl _ ht
  refine ⟨fun t => ?_, fun t => ?_, fun t => ?_⟩
  · exact Term.rec (motive_1 := P) (motive_2 := Q) (motive_3 := R)
      (motive_4 := fun ts => ∀ t ∈ ts, P t) (motive_5 := fun ts => ∀ t ∈ ts, R t)
      (motive_6 := fun rows => ∀ row ∈ rows, ∀ t ∈ row, R t)
      runtimeType staticType boundedNatType stringType bytesType floatType listType tupleType
      runtime boundedNat string bytes float list listConcat tuple tupleConcat var constType
      ext alias function tyVar sumUnit sumGen rty rowVar nilT consT nilR consR nilL consL t
  · exact Ty.rec (motive_1 := P) (motive_2 := Q) (motive_3 := R)
      (motive_4 := fun ts => ∀ t ∈ ts, P t) (motive_5 := fun ts => ∀ t ∈ ts, R t)
      (motive_6 := fun rows => ∀ row ∈ rows, ∀ t ∈ row, R t)
      runtimeType staticType boundedNatType stringType bytesType floatType listType tupleType
      runtime boundedNat string bytes float list listConcat tuple tupleConcat var constType
      ext alias function tyVar sumUnit sumGen rty rowVar nilT consT nilR consR nilL consL t
  · exact RTy.rec (motive_1 := P) (motive_2 := Q) (motive_3 := R)
      (motive_4 := fun ts => ∀ t ∈ ts, P t) (motive_5 := fun ts => ∀ t ∈ ts, R t)
      (motive_6 := fun rows => ∀ row ∈ rows, ∀ t ∈ row, R t)
      runtimeType staticType boundedNatType stringType bytesType floatType listType tupleType
      runtime boundedNat string bytes float list listConcat tuple tupleConcat var constType
      ext alias function tyVar sumUnit sumGen rty rowVar nilT consT nilR consR nilL consL t

/-! ## Structural equality is decidable -/

mutual
/-- Structural equality test on terms (see `Sum.lean` for the coarser equality of `SumType`). -/
def Term.same : Term → Term → Bool
  | .runtimeType b, .runtimeType b' => b == b'
  | .staticType, .staticType => true
  | .boundedNatType u, .boundedNatType u' => u == u'
  | .stringType, .stringType => true
  | .bytesType, .bytesType => true
  | .floatType, .floatType => true
  | .listType t, .listType t' => t.same t'
  | .tupleType t, .tupleType t' => t.same t'
  | .runtime t, .runtime t' => t.same t'
  | .boundedNat n, .boundedNat n' => n == n'
  | .string s, .string s' => s == s'
  | .bytes s, .bytes s' => s == s'
  | .float s, .float s' => s == s'
  | .list ts, .list ts' => sameTerms ts ts'
  | .listConcat ts, .listConcat ts' => sameTerms ts ts'
  | .tuple ts, .tuple ts' => sameTerms ts ts'
  | .tupleConcat ts, .tupleConcat ts' => sameTerms ts ts'
  | .variable i d, .variable i' d' => i == i' && d.same d'
  | .constType t, .constType t' => t.same t'
  | _, _ => false
termination_by structural t => t
def sameTerms : List Term → List Term → Bool
  | [], [] => true
  | t :: ts, t' :: ts' => t.same t' && sameTerms ts ts'
  | _, _ => false
termination_by structural t => t
def Ty.same : Ty → Ty → Bool
  | .ext e i a b, .ext e' i' a' b' => e == e' && i == i' && sameTerms a a' && b == b'
  | .alias n b, .alias n' b' => n == n' && b == b'
  | .function i o, .function i' o' => sameRow i i' && sameRow o o'
  | .variable i b, .variable i' b' => i == i' && b == b'
  | .sumUnit n, .sumUnit n' => n == n'
  | .sumGen r b, .sumGen r' b' => sameRows r r' && b == b'
  | _, _ => false
termination_by structural t => t
def RTy.same : RTy → RTy → Bool
  | .ty t, .ty t' => t.same t'
  | .rowVar i b, .rowVar i' b' => i == i' && b == b'
  | _, _ => false
termination_by structural t => t
def sameRow : List RTy → List RTy → Bool
  | [], [] => true
  | t :: ts, t' :: ts' => t.same t' && sameRow ts ts'
  | _, _ => false
termination_by structural t => t
def sameRows : List (List RTy) → List (List RTy) → Bool
  | [], [] => true
  | t :: ts, t' :: ts' => sameRow t t' && sameRows ts ts'
  | _, _ => false
termination_by structural t => t
end

theorem sameTerms_iff {ts : List Term} (h : ∀ t ∈ ts, ∀ t', t.same t' = true ↔ t = t') :
    ∀ ts', sameTerms ts ts' = true ↔ ts = ts' := by
  induction ts with
  | nil => intro ts'; cases ts' <;> simp [sameTerms]
  | cons t ts ih =>
    intro ts'
    cases ts' with
    | nil => simp [sameTerms]
    | cons t' ts' =>
      simp only [sameTerms, Bool.and_eq_true, List.cons.injEq]
      rw [h t (by simp) t', ih (fun x hx => h x (by simp [hx])) ts']

theorem sameRow_iff {ts : List RTy} (h : ∀ t ∈ ts, ∀ t', t.same t' = true ↔ t = t') :
    ∀ ts', sameRow ts ts' = true ↔ ts = ts' := by
  induction ts with
  | nil => intro ts'; cases ts' <;> simp [sameRow]
  | cons t ts ih =>
    intro ts'
    cases ts' with
    | nil => simp [sameRow]
    | cons t' ts' =>
      simp only [sameRow, Bool.and_eq_true, List.cons.injEq]
      rw [h t (by simp) t', ih (fun x hx => h x (by simp [hx])) ts']

theorem sameRows_iff {ts : List (List RTy)}
    (h : ∀ r ∈ ts, ∀ t ∈ r, ∀ t', t.same t' = true ↔ t = t') :
    ∀ ts', sameRows ts ts' = true ↔ ts = ts' := by
  induction ts with
  | nil => intro ts'; cases ts' <;> simp [sameRows]
  | cons t ts ih =>
    intro ts'
    cases ts' with
    | nil => simp [sameRows]
    | cons t' ts' =>
      simp only [sameRows, Bool.and_eq_true, List.cons.injEq]
      rw [sameRow_iff (h t (by simp)) t', ih (fun x hx => h x (by simp [hx])) ts']

theorem same_iff : (∀ t t' : Term, t.same t' = true ↔ t = t') ∧
    (∀ t t' : Ty, t.same t' = true ↔ t = t') ∧ (∀ t t' : RTy, t.same t' = true ↔ t = t') := by
  apply syntax_induction
  case list => intro ts h t'; cases t' <;> simp [Term.same, sameTerms_iff h]
  case listConcat => intro ts h t'; cases t' <;> simp [Term.same, sameTerms_iff h]
  case tuple => intro ts h t'; cases t' <;> simp [Term.same, sameTerms_iff h]
  case tupleConcat => intro ts h t'; cases t' <;> simp [Term.same, sameTerms_iff h]
  case ext => intro e i a b h t'; cases t' <;> simp [Ty.same, sameTerms_iff h, and_assoc]
  case function =>
    intro i o hi ho t'; cases t' <;> simp [Ty.same, sameRow_iff hi, sameRow_iff ho]
  case sumGen => intro rows b h t'; cases t' <;> simp [Ty.same, sameRows_iff h]
  case rty => intro t h t'; cases t' <;> simp [RTy.same, h]
  case rowVar => intro i b t'; cases t' <;> simp [RTy.same]
  case alias => intro n b t'; cases t' <;> simp [Ty.same]
  case tyVar => intro n b t'; cases t' <;> simp [Ty.same]
  case sumUnit => intro n t'; cases t' <;> simp [Ty.same]
  case listType => intro t h t'; cases t' <;> simp [Term.same, h]
  case tupleType => intro t h t'; cases t' <;> simp [Term.same, h]
  case runtime => intro t h t'; cases t' <;> simp [Term.same, h]
  case constType => intro t h t'; cases t' <;> simp [Term.same, h]
  case var => intro i d h t'; cases t' <;> simp [Term.same, h]
  all_goals (intros; rename_i t'; cases t' <;> simp [Term.same])

instance : DecidableEq Term := fun a b =>
  if h : a.same b = true then .isTrue ((same_iff.1 a b).mp h)
  else .isFalse (fun e => h ((same_iff.1 a b).mpr e))
instance : DecidableEq Ty := fun a b =>
  if h : a.same b = true then .isTrue ((same_iff.2.1 a b).mp h)
  else .isFalse (fun e => h ((same_iff.2.1 a b).mpr e))
instance : DecidableEq RTy := fun a b =>
  if h : a.same b = true then .isTrue ((same_iff.2.2 a b).mp h)
  else .isFalse (fun e => h ((same_iff.2.2 a b).mpr e))

end Verif.Types
