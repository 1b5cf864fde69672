import Verif.Common.SortedMap
/-!
# Model of `ExtensionRegistry`

Source: `/repo/hugr-core/src/extension.rs`. Extension ids and versions are
elements of arbitrary linear orders (`IdentList` and `semver::Version` are
totally ordered); the contents of an extension are an arbitrary type.
-/
namespace Verif.Registry

variable {K V B E : Type} [LinearOrder K] [LinearOrder V]

/-- What the registry uses of an `Extension` (extension.rs:547-561): its name, its
version, and contents, of which the registry only uses `Extension::validate`. -/
structure Ext (K V B : Type) where
  name : K
  version : V
  body : B

/-- `ExtensionRegistry`, extension.rs:50-60. -/
structure Reg (K V B : Type) where
  exts : List (K × Ext K V B)
  valid : Bool

/-- Results of registry calls. -/
inductive RegOut (K V B : Type) where
  | ok
  | alreadyRegistered (name : K) (previous new : V)
  | ext (e : Option (Ext K V B))

/-- `ExtensionRegistry::default`, extension.rs:48 (derived). -/
def Reg.empty : Reg K V B := ⟨[], false⟩

/-- `EMPTY_REG`, extension.rs:371-374. -/
def Reg.emptyStatic : Reg K V B := ⟨[], true⟩

/-- `ExtensionRegistry::register`, extension.rs:131-152. -/
def Reg.register (r : Reg K V B) (e : Ext K V B) : Reg K V B × RegOut K V B :=
  match bmGet r.exts e.name with
  | some prev => (r, .alreadyRegistered e.name prev.version e.version)
  | none => (⟨bmInsert r.exts e.name e, false⟩, .ok)

/-- `ExtensionRegistry::register_updated` (and `register_updated_ref`, whose body
differs only in cloning), extension.rs:161-175 and 186-199. -/
def Reg.registerUpdated (r : Reg K V B) (e : Ext K V B) : Reg K V B :=
  match bmGet r.exts e.name with
  | some prev =>
    if prev.version < e.version then ⟨bmInsert r.exts e.name e, false⟩ else ⟨r.exts, false⟩
  | none => ⟨bmInsert r.exts e.name e, false⟩

/-- `ExtensionRegistry::new`, extension.rs:79-85 (also `Deserialize`, 350-358). -/
def Reg.new (es : List (Ext K V B)) : Reg K V B := es.foldl Reg.registerUpdated Reg.empty

/-- `Extend::extend`, extension.rs:327-343. -/
def Reg.extend (r : Reg K V B) (es : List (Ext K V B)) : Reg K V B :=
  es.foldl Reg.registerUpdated r

/-- `ExtensionRegistry::get`, extension.rs:106-108. -/
def Reg.get (r : Reg K V B) (name : K) : Option (Ext K V B) := bmGet r.exts name

/-- `ExtensionRegistry::remove_extension`, extension.rs:222-227. -/
def Reg.remove (r : Reg K V B) (name : K) : Reg K V B × Option (Ext K V B) :=
  (⟨bmRemove r.exts name, false⟩, bmGet r.exts name)

/-- The loop of `ExtensionRegistry::validate`, extension.rs:120-123: the first
extension that fails its own validation, in key order. `check` stands for
`Extension::validate` (extension.rs:677-683), with `none` for `Ok`. -/
def firstInvalid (check : Ext K V B → Option E) : List (K × Ext K V B) → Option (K × E)
  | [] => none
  | (_, e) :: m =>
    match check e with
    | some err => some (e.name, err)
    | none => firstInvalid check m

/-- Calls that change a registry or read an entry. -/
inductive RegOp (K V B : Type) where
  | register (e : Ext K V B)
  | registerUpdated (e : Ext K V B)
  | extend (es : List (Ext K V B))
  | remove (name : K)
  | get (name : K)

/-- One call. -/
def Reg.step (r : Reg K V B) : RegOp K V B → Reg K V B × RegOut K V B
  | .register e => r.register e
  | .registerUpdated e => (r.registerUpdated e, .ok)
  | .extend es => (r.extend es, .ok)
  | .remove n => ((r.remove n).1, .ext (r.remove n).2)
  | .get n => (r, .ext (r.get n))

end Verif.Registry
