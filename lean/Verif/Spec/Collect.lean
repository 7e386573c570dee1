import Verif.Model.Collect

/-! # Which definitions a module can name, after RFC 7950 -/

namespace Spec
open Py Pyb

/-- The statements that can hold a `typedef` (RFC 7950, 7.3): besides a module and a
submodule, these. -/
def ScopeKw (k : StmKw) : Prop := k ∈ [.container_, .list_, .grouping_, .rpc_, .action_, .input_, .output_, .notification_]

/-- `s` is a definition of the kind `d` somewhere under a module's statements.  A scope
that has no data nodes holds no leaf that could use its definitions; such scopes are left
out. -/
inductive Declares (d : StmKw) : List Stm → Stm → Prop where
  | here (subs : List Stm) (s : Stm) (hs : s ∈ subs) (hk : s.kw = d) : Declares d subs s
  | inside (subs : List Stm) (x s : Stm) (hx : x ∈ subs) (hk : ScopeKw x.kw) (hc : x.kids = true) (h : Declares d x.subs s) : Declares d subs s

/-- As `Declares`, without going into an `action`. -/
inductive DeclaresNA (d : StmKw) : List Stm → Stm → Prop where
  | here (subs : List Stm) (s : Stm) (hs : s ∈ subs) (hk : s.kw = d) : DeclaresNA d subs s
  | inside (subs : List Stm) (x s : Stm) (hx : x ∈ subs) (hk : ScopeKw x.kw) (hn : x.kw ≠ .action_) (hc : x.kids = true) (h : DeclaresNA d x.subs s) : DeclaresNA d subs s

/-- Module `n` includes the submodule `s`. -/
def Includes (r : Repo) (n s : Str) : Prop := ∃ m, r n = some m ∧ s ∈ m.includes ∧ (r s).isSome = true

/-- Module or submodule `n` imports `x` under the prefix `p`. -/
def Imports (r : Repo) (n p x : Str) : Prop := ∃ m, r n = some m ∧ (p, x) ∈ m.imports ∧ (r x).isSome = true

/-- `x` is a part of the module `n`: it, or a submodule it includes. -/
def PartOf (r : Repo) (n x : Str) : Prop := x = n ∨ Includes r n x

/-- The modules needed to build `roots`: they, and what they or their submodules import. -/
inductive Needed (r : Repo) (roots : List Str) : Str → Prop where
  | root (n : Str) (h : n ∈ roots) : Needed r roots n
  | imported (n s p x : Str) (h : Needed r roots n) (hs : PartOf r n s) (hi : Imports r s p x) : Needed r roots x

/-- The prefix of a module, or of the module that a submodule belongs to. -/
def OwnPrefix (m : Mod) (p : Str) : Prop := m.prefix_ = some p ∨ (m.prefix_ = none ∧ m.belongs = some p)

/-- In the module `n` and its submodules, the prefix `p` stands for a module that `x` is
or is a part of: the module's own prefix, or that of an import. -/
def Sees (r : Repo) (n p x : Str) : Prop :=
  (∃ m, r n = some m ∧ OwnPrefix m p ∧ PartOf r n x) ∨ ∃ s, PartOf r n s ∧ Imports r s p x

/-- Imports do not run in circles: some rank falls along them.  (pyang refuses circular
imports.) -/
def Acyclic (r : Repo) : Prop := ∃ rank : Str → Nat, ∀ n s p x, PartOf r n s → Imports r s p x → rank x < rank n

/-- Every module has a prefix, or belongs to one that does; and identifiers have no
colon. -/
structure ModsOk (r : Repo) (d : StmKw) (roots : List Str) : Prop where
  found : ∀ n ∈ roots, (r n).isSome = true
  pfx : ∀ n m, r n = some m → ∃ p, OwnPrefix m p
  plain : ∀ n p x, Sees r n p x → ':' ∉ p
  names : ∀ n m s, r n = some m → Declares d m.body s → ':' ∉ s.arg

/-- A qualified name means one definition: no module has two definitions of a name, even
in different scopes, and no prefix stands for two modules that define the same name. -/
def PrefixOnce (r : Repo) (d : StmKw) (roots : List Str) : Prop :=
  ∀ n n' p x x' m m' s t, Needed r roots n → Needed r roots n' → Sees r n p x → Sees r n' p x' →
    r x = some m → r x' = some m' → DeclaresNA d m.body s → DeclaresNA d m'.body t → s.arg = t.arg → s = t

end Spec
