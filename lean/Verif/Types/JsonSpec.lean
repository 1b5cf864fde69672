import Verif.Types.Json
import Verif.Types.Built
/-
Specification for the JSON form of types: which values a program can hold, which of them contain
only finite floats, and when two documents differ only in ways that do not matter.
-/
namespace Verif.Types

mutual
/-- `p` holds of every term and `q` of every index of a type or row variable inside. -/
def Term.every (p : Term → Bool) (q : Nat → Bool) : Term → Bool
  | .listType t => p (.listType t) && t.every p q
  | .tupleType t => p (.tupleType t) && t.every p q
  | .runtime t => p (.runtime t) && t.every p q
  | .constType t => p (.constType t) && t.every p q
  | .list ts => p (.list ts) && everyTerm p q ts
  | .listConcat ts => p (.listConcat ts) && everyTerm p q ts
  | .tuple ts => p (.tuple ts) && everyTerm p q ts
  | .tupleConcat ts => p (.tupleConcat ts) && everyTerm p q ts
  | .variable i d => p (.variable i d) && d.every p q
  | t => p t
def everyTerm (p : Term → Bool) (q : Nat → Bool) : List Term → Bool
  | [] => true
  | t :: ts => t.every p q && everyTerm p q ts
def Ty.every (p : Term → Bool) (q : Nat → Bool) : Ty → Bool
  | .ext _ _ args _ => everyTerm p q args
  | .function i o => everyElem p q i && everyElem p q o
  | .variable i _ => q i
  | .sumGen rows _ => everyRow p q rows
  | _ => true
def RTy.every (p : Term → Bool) (q : Nat → Bool) : RTy → Bool
  | .ty t => t.every p q
  | .rowVar i _ => q i
def everyElem (p : Term → Bool) (q : Nat → Bool) : List RTy → Bool
  | [] => true
  | t :: ts => t.every p q && everyElem p q ts
def everyRow (p : Term → Bool) (q : Nat → Bool) : List (List RTy) → Bool
  | [] => true
  | r :: rs => everyElem p q r && everyRow p q rs
end

/-- The numbers directly in a term fit the Rust types: `u64` for numbers and floats, a non-zero
`u64` for a bound, `usize` (64 bits) for an index, `u8` for a byte. -/
def fitsHere : Term → Bool
  | .boundedNat n => decide (n < 2 ^ 64)
  | .boundedNatType (some n) => decide (0 < n ∧ n < 2 ^ 64)
  | .bytes bs => bs.all (fun b => decide (b < 256))
  | .float bits => decide (bits < 2 ^ 64)
  | .variable i _ => decide (i < 2 ^ 64)
  | _ => true

/-- All numbers fit the Rust types, so there is such a Rust value. -/
def Term.fits (t : Term) : Bool := t.every fitsHere (fun i => decide (i < 2 ^ 64))
/-- See `Term.fits`. -/
def Ty.fits (t : Ty) : Bool := t.every fitsHere (fun i => decide (i < 2 ^ 64))
/-- See `Term.fits`. -/
def RTy.fits (t : RTy) : Bool := t.every fitsHere (fun i => decide (i < 2 ^ 64))

/-- A float term is finite. -/
def finiteHere : Term → Bool
  | .float bits => finiteBits bits
  | _ => true

/-- No NaN and no infinity inside. -/
def Term.finite (t : Term) : Bool := t.every finiteHere (fun _ => true)
/-- See `Term.finite`. -/
def Ty.finite (t : Ty) : Bool := t.every finiteHere (fun _ => true)
/-- See `Term.finite`. -/
def RTy.finite (t : RTy) : Bool := t.every finiteHere (fun _ => true)

/-- The names of the members of the format. -/
def knownMembers : List String :=
  ["t", "s", "tp", "tya", "input", "output", "size", "rows", "extension", "id", "args", "bound",
    "name", "i", "b", "ty", "n", "arg", "value", "elems", "lists", "tuples", "idx", "cached_decl",
    "param", "params"]

/-- One step between documents that differ only in the order of the members of an object, or by a
member whose name the format does not use, anywhere in the document. -/
inductive Json.Step : Json → Json → Prop
  | elem {j k : Json} (pre post : List Json) : Json.Step j k →
      Json.Step (.arr (pre ++ j :: post)) (.arr (pre ++ k :: post))
  | member {j k : Json} (s : String) (pre post : List (String × Json)) : Json.Step j k →
      Json.Step (.obj (pre ++ (s, j) :: post)) (.obj (pre ++ (s, k) :: post))
  | perm {ms ns : List (String × Json)} : ms.Perm ns → Json.Step (.obj ms) (.obj ns)
  | extra {s : String} {j : Json} {ms : List (String × Json)} : s ∉ knownMembers →
      Json.Step (.obj ms) (.obj ((s, j) :: ms))

theorem everyTerm_iff (p : Term → Bool) (q : Nat → Bool) (ts : List Term) :
    everyTerm p q ts = true ↔ ∀ t ∈ ts, t.every p q = true := by
  induction ts with
  | nil => simp [everyTerm]
  | cons t ts ih => simp [everyTerm, ih]
theorem everyElem_iff (p : Term → Bool) (q : Nat → Bool) (ts : List RTy) :
    everyElem p q ts = true ↔ ∀ t ∈ ts, t.every p q = true := by
  induction ts with
  | nil => simp [everyElem]
  | cons t ts ih => simp [everyElem, ih]
theorem everyRow_iff (p : Term → Bool) (q : Nat → Bool) (ts : List (List RTy)) :
    everyRow p q ts = true ↔ ∀ r ∈ ts, ∀ t ∈ r, t.every p q = true := by
  induction ts with
  | nil => simp [everyRow]
  | cons t ts ih => simp [everyRow, ih, everyElem_iff]

end Verif.Types
