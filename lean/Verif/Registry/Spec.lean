import Verif.Registry.Model
/-!
# Specification of the extension registry

For each id, the specification keeps the list of all extensions offered under
that id since it was last removed. The registry must hold the newest of them.
-/
namespace Verif.Registry

variable {K V B : Type} [LinearOrder K] [LinearOrder V]

/-- The extensions offered under each id. -/
abbrev Offers (K V B : Type) := K → List (Ext K V B)

/-- `register_updated` offers the extension. -/
def Offers.offer (c : Offers K V B) (e : Ext K V B) : Offers K V B :=
  fun n => if n = e.name then c n ++ [e] else c n

/-- The effect of a call on the offers. `register` counts only when its id is free. -/
def Offers.step (c : Offers K V B) : RegOp K V B → Offers K V B
  | .registerUpdated e => c.offer e
  | .extend es => es.foldl Offers.offer c
  | .register e => if (c e.name).isEmpty then c.offer e else c
  | .remove n => fun m => if m = n then [] else c m
  | .get _ => c

/-- The offers after a history of calls on a new registry. -/
def offersAfter (ops : List (RegOp K V B)) : Offers K V B :=
  ops.foldl Offers.step fun _ => []

/-- `e` is the first of the extensions with the highest version. -/
def IsNewest (l : List (Ext K V B)) (e : Ext K V B) : Prop :=
  ∃ before after, l = before ++ e :: after ∧ (∀ x ∈ before, x.version < e.version) ∧
    ∀ x ∈ after, x.version ≤ e.version

/-- What a registry must hold for an id. -/
def Holds (l : List (Ext K V B)) : Option (Ext K V B) → Prop
  | none => l = []
  | some e => IsNewest l e

/-- What a call must answer, given the offers before it. -/
def Answers (c : Offers K V B) : RegOp K V B → RegOut K V B → Prop
  | .register e, out =>
    (c e.name = [] ∧ out = .ok) ∨
    ∃ previous, IsNewest (c e.name) previous ∧
      out = .alreadyRegistered e.name previous.version e.version
  | .registerUpdated _, out => out = .ok
  | .extend _, out => out = .ok
  | .remove n, out => ∃ e, Holds (c n) e ∧ out = .ext e
  | .get n, out => ∃ e, Holds (c n) e ∧ out = .ext e

end Verif.Registry
