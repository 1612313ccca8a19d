import Verif.Nexus.Model

/-! # What configurations should mean -/
namespace Verif.Nexus.Spec
open Verif.Nexus

/-- One `extend` of the configuration, with what stands around it: the values of the compile-time
conditions, and the runtime conditions, the innermost first. -/
structure Node (A : Type) where
  consts : List Bool
  conds : List Nat
  target : Target
  args : List A

/-- It counts when all compile-time conditions around it are true. -/
def Node.active {A : Type} (n : Node A) : Bool := n.consts.all id

mutual

/-- The extensions in the configuration, in the order in which they are written. -/
def nodes {A : Type} (consts : List Bool) (conds : List Nat) : Cfg A → List (Node A)
  | .config cs => nodesAll consts conds cs
  | .components cs => nodesAll consts conds cs
  | .exports _ => []
  | .extend t as => [⟨consts, conds, t, as⟩]
  | .constIf ps cs => nodesAll (ps ++ consts) conds cs
  | .runIf c cs => nodesAll consts (c :: conds) cs

def nodesAll {A : Type} (consts : List Bool) (conds : List Nat) : List (Cfg A) → List (Node A)
  | [] => []
  | c :: cs => nodes consts conds c ++ nodesAll consts conds cs

end

/-- The extensions that count. -/
def activeNodes {A : Type} (c : Cfg A) : List (Node A) := (nodes [] [] c).filter Node.active

/-- An argument under runtime conditions, the innermost first. -/
def wrap {A : Type} (mk : Nat → A → Option A) : List Nat → A → Option A
  | [], a => some a
  | c :: cs, a => (mk c a).bind (wrap mk cs)

mutual

/-- The configuration without what the compile-time conditions leave out. -/
def prune {A : Type} : Cfg A → Cfg A
  | .config cs => .config (pruneAll cs)
  | .components cs => .components (pruneAll cs)
  | .exports ss => .exports ss
  | .extend t as => .extend t as
  | .constIf ps cs => if ps.all id then .config (pruneAll cs) else .config []
  | .runIf c cs => .runIf c (pruneAll cs)

def pruneAll {A : Type} : List (Cfg A) → List (Cfg A)
  | [] => []
  | c :: cs => prune c :: pruneAll cs

end

mutual

/-- The configuration with every extension by name written as one by type. -/
def byType {A : Type} (type : Nat → Nat) : Cfg A → Cfg A
  | .config cs => .config (byTypeAll type cs)
  | .components cs => .components (byTypeAll type cs)
  | .exports ss => .exports ss
  | .extend (.name n) as => .extend (.type (type n)) as
  | .extend (.type s) as => .extend (.type s) as
  | .constIf ps cs => .constIf ps (byTypeAll type cs)
  | .runIf c cs => .runIf c (byTypeAll type cs)

def byTypeAll {A : Type} (type : Nat → Nat) : List (Cfg A) → List (Cfg A)
  | [] => []
  | c :: cs => byType type c :: byTypeAll type cs

end

end Verif.Nexus.Spec
