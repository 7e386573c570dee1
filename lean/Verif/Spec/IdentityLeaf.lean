import Verif.Model.Json
import Verif.Model.Xml
import Verif.Spec.Identity

/-! # Identities in documents -/

namespace Spec
open Py Pyb

/-- The text is a value of an identityref with base `b`, and stands for the identity `c`. -/
def NamesId (mods : List (List (Str × Str))) (defs : List IdDef) (b : IdDef) (y : Str) (c : IdDef) : Prop :=
  c ∈ defs ∧ DerivedFrom defs (c.mod, c.name) (b.mod, b.name) ∧ Spelling mods c y

/-- The text stands for no other identity. -/
def ClearId (mods : List (List (Str × Str))) (defs : List IdDef) (b : IdDef) (y : Str) (c : IdDef) : Prop :=
  ∀ c', NamesId mods defs b y c' → c' = c

/-- The JSON encoding of an identity as the value of a leaf of module `mod` (RFC 7951,
6.8): `module:name`, or only the name if it is of the same module. -/
inductive JsonIdentity (mod : Str) (c : IdDef) : J → Prop where
  | qualified : JsonIdentity mod c (.str (c.mod ++ ':' :: c.name))
  | same : c.mod = mod → JsonIdentity mod c (.str c.name)

/-- The XML encoding (RFC 7950, 9.10.3): a prefix that is declared to mean the namespace of
the module of the identity, or no prefix, if the element is in this namespace. -/
inductive XmlIdentity (c : IdDef) : Xml → Prop where
  | qualified {ns nm d p} : (p, c.ns) ∈ d → XmlIdentity c (.elem ns nm d (some (p ++ ':' :: c.name)) [])
  | same {nm d} : XmlIdentity c (.elem c.ns nm d (some c.name) [])

end Spec
