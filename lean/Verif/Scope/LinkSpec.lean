import Verif.Scope.LinkTable
/-!
# Specification of scoped links

A stack of open regions, innermost first, each with the distinct names used in
it so far, in order of first use, and the number of uses.
-/
namespace Verif.Scope

/-- An open region: its id, the distinct link names in order of first use, and
the total number of uses. -/
structure OpenRegion where
  region : Nat
  names : List String
  uses : Nat

/-- What each call must do on the stack of open regions (innermost first). -/
def LinkSpec.step : List OpenRegion → LinkOp → Option (List OpenRegion × LinkOut)
  | st, .enter r => some (⟨r, [], 0⟩ :: st, .unit)
  | [], .exit => none
  | f :: st, .exit => some (st, .counts f.names.length f.uses)
  | [], .useLink _ => none
  | f :: st, .useLink k =>
    -- a region has fewer than 2^32 ports
    if f.uses + 1 < 2 ^ 32 then
      let names := if k ∈ f.names then f.names else f.names ++ [k]
      some (⟨f.region, names, f.uses + 1⟩ :: st, .link (names.findIdx (· = k)))
    else none

/-- The client contract: a region that is already open is not entered again. -/
def LinkSpec.ok : List OpenRegion → LinkOp → Prop
  | st, .enter r => r ∉ st.map OpenRegion.region
  | _, _ => True

end Verif.Scope
