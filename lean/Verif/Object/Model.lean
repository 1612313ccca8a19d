import Verif.Message.Model

/-!
# Model of message objects in memory

Owning messages, views and the arrays behind them (`/repo/include/msg/message.hpp` 336-682,
`/repo/include/msg/message_destructure.hpp`). A program is a list of statements; each declares a variable or
works on those declared before it.

`none` is a program that does not compile, or undefined behaviour (an access outside a storage).

Simplified: variables live to the end of the program, so that no view outlives its storage; arrays and owning
messages are declared mutable (a constant one is a mutable one that is only used through constant views);
values of fields are numbers (as in `Verif.Message`). `std::array`, `std::copy_n` and `stdx::span` are as
documented. Where template arguments can be deduced or written, the model does not tell the two apart.
-/
namespace Verif.Object
open Verif.Bits Verif.Message

/-- A storage: an array of `W`-bit elements. -/
structure Store where
  W : Nat
  els : List (BitVec W)
deriving DecidableEq

/-- What a variable is: an array, an owning message, or a view. -/
inductive Kind where
  | array
  | owner
  | view
deriving DecidableEq, Repr

/-- A variable. Of its type: the kind, the fields of the definition (none for an array), the element type, the
number of elements, and whether they are constant (`view_t<span<T const, N>>`). At run time: the storage and
the first element; an array and an owning message have a storage of their own, from its beginning (563). -/
structure Obj where
  kind : Kind
  fs : List MField
  W : Nat
  len : Nat
  const : Bool
  store : Nat
  off : Nat
deriving DecidableEq

/-- Memory and variables. -/
structure St where
  mem : List Store
  objs : List Obj

/-- The elements a variable stands for: `data()`, 447, 542-547. -/
def St.data (s : St) (x : Obj) : Option (List (BitVec x.W)) := do
  let st ← s.mem[x.store]?
  if h : st.W = x.W then
    if x.off + x.len ≤ st.els.length then
      return ((st.els.drop x.off).take x.len).map (·.cast h)
  none

/-- Writing them back. -/
def St.put (s : St) (x : Obj) (r : List (BitVec x.W)) : Option St := do
  let st ← s.mem[x.store]?
  if h : x.W = st.W then
    let els := st.els.take x.off ++ r.map (·.cast h) ++ st.els.drop (x.off + x.len)
    return { s with mem := s.mem.set x.store ⟨st.W, els⟩ }
  none

/-- A new storage, and a variable for it. -/
def St.alloc (s : St) (k : Kind) (fs : List MField) (W : Nat) (r : List (BitVec W)) : St :=
  { mem := s.mem ++ [⟨W, r⟩], objs := s.objs ++ [⟨k, fs, W, r.length, false, s.mem.length, 0⟩] }

/-- The static assertion of owning messages and views: 409-411, 459-460, 561-562. -/
def fits (fs : List MField) (W n : Nat) : Bool := fs.all fun f => f.fld.fitsInside W n

/-- The number of bits of `default_value_type`, 276. -/
def defaultW : Nat := 32

/-- Statements. Variables are numbered in the order of their declarations. -/
inductive Stmt where
  /-- `std::array<T, N> a{...};` -/
  | array (W : Nat) (els : List Nat)
  /-- `a[i] = v;` where `a` is an array. -/
  | poke (x i v : Nat)
  /-- `msg::owning<M> m{vs...};` -/
  | owning (fs : List MField) (vs : List (Nat × Nat))
  /-- `msg::owning<M> m{x, vs...};` where `x` is an array or a view of a message `M`. -/
  | owningFrom (fs : List MField) (x : Nat) (vs : List (Nat × Nat))
  /-- `typename M::owner_t m{x, vs...};` where `x` is an array or a view of a message `M`. -/
  | ownerFrom (fs : List MField) (x : Nat) (vs : List (Nat × Nat))
  /-- `auto m = x.as_owning();` where `x` is a view. -/
  | asOwning (x : Nat)
  /-- `typename M::view_t v{x, vs...};` where `x` is an array or an owning message `M`. -/
  | view (fs : List MField) (x : Nat) (vs : List (Nat × Nat))
  /-- `typename M::view_t v{std::as_const(x)};` where `x` is an array or an owning message `M`. -/
  | constView (fs : List MField) (x : Nat)
  /-- `auto s = stdx::span{x}.subspan<off, len>(); typename M::view_t v{s, vs...};` where `x` is an array; where
  it is a message, `x.data()` for `stdx::span{x}`. -/
  | spanView (fs : List MField) (x off len : Nat) (vs : List (Nat × Nat))
  /-- `auto v = x.as_mutable_view();` where `x` is an owning message. -/
  | asMutable (x : Nat)
  /-- `auto v = x.as_const_view();` -/
  | asConst (x : Nat)
  /-- `typename M::template view_t<stdx::span<T const, len>> v = x;` where `x` is a view of a message `M`. -/
  | narrow (x len : Nat)
  /-- `auto y = x;` -/
  | copy (x : Nat)
  /-- `x = y;` -/
  | assign (x y : Nat)
  /-- `x.set(...);` -/
  | set (x : Nat) (op : SetOp)
  /-- `x["n"_field] = v;` -/
  | index (x n v : Nat)

/-- A call without arguments, `set()`: 351. -/
def noArgs : SetOp → Bool
  | .values [] => true
  | .names [] => true
  | _ => false

/-- `set` on a message: `msg_base::set`, 348-351. A view of constant elements has only the one without
arguments. -/
def St.setOp (s : St) (x : Obj) (op : SetOp) : Option St :=
  if x.kind = .array then none
  else if noArgs op then some s
  else if x.const = false ∧ op.ok x.fs then do
    let r ← s.data x
    let r ← op.run x.W x.fs r
    s.put x r
  else none

/-- A view: 421-445; its constructor sets the values through it. -/
def St.window (s : St) (v : Obj) (vs : List (Nat × Nat)) : Option St :=
  if fits v.fs v.W v.len then St.setOp { s with objs := s.objs ++ [v] } v (.values vs) else none

/-- An owning message of `n` elements with a copy of those of `x`: 525-540. -/
def St.ownerCopy (s : St) (fs : List MField) (x : Obj) (n : Nat) (vs : List (Nat × Nat)) : Option St :=
  if fits fs x.W n ∧ setOk fs vs then do
    let r ← s.data x
    let r ← constructFrom x.W n fs r vs
    return s.alloc .owner fs x.W r
  else none

/-- One statement. -/
def St.step (s : St) : Stmt → Option St
  | .array W els => some (s.alloc .array [] W (els.map (BitVec.ofNat W)))
  | .poke x i v => do
    let x ← s.objs[x]?
    if x.kind = .array ∧ i < x.len then do
      let r ← s.data x
      s.put x (r.set i (BitVec.ofNat x.W v))
    else none
  | .owning fs vs =>                     -- 494-523
    if fits fs defaultW (storageSize defaultW fs) ∧ constructOk fs vs then do
      let r ← construct defaultW (storageSize defaultW fs) fs vs
      return s.alloc .owner fs defaultW r
    else none
  | .owningFrom fs x vs => do            -- 525-540, 638; the element types must agree, 527-530
    let x ← s.objs[x]?
    if (x.kind = .array ∨ x.kind = .view ∧ x.fs = fs) ∧ x.W = defaultW then
      s.ownerCopy fs x (storageSize x.W fs) vs
    else none
  | .ownerFrom fs x vs => do             -- 525-540, 589-591, 594-596
    let x ← s.objs[x]?
    if x.kind = .array ∨ x.kind = .view ∧ x.fs = fs then s.ownerCopy fs x x.len vs else none
  | .asOwning x => do                    -- 449
    let x ← s.objs[x]?
    if x.kind = .view then s.ownerCopy x.fs x x.len [] else none
  | .view fs x vs => do                  -- 424-427, 433-437, 602-604, 616-618
    let x ← s.objs[x]?
    if x.kind = .array ∨ x.kind = .owner ∧ x.fs = fs then
      s.window ⟨.view, fs, x.W, x.len, false, x.store, x.off⟩ vs
    else none
  | .constView fs x => do                -- 421-422, 429-431, 598-601, 613-615
    let x ← s.objs[x]?
    if x.kind = .array ∨ x.kind = .owner ∧ x.fs = fs then
      s.window ⟨.view, fs, x.W, x.len, true, x.store, x.off⟩ []
    else none
  | .spanView fs x off len vs => do      -- 421-427, 606-611
    let x ← s.objs[x]?
    if off + len ≤ x.len then
      s.window ⟨.view, fs, x.W, len, x.const, x.store, x.off + off⟩ vs
    else none
  | .asMutable x => do                   -- 549-551
    let x ← s.objs[x]?
    if x.kind = .owner then s.window ⟨.view, x.fs, x.W, x.len, false, x.store, x.off⟩ [] else none
  | .asConst x => do                     -- 451-456, 553-558
    let x ← s.objs[x]?
    if x.kind = .array then none else s.window ⟨.view, x.fs, x.W, x.len, true, x.store, x.off⟩ []
  | .narrow x len => do                  -- 439-445
    let x ← s.objs[x]?
    if x.kind = .view ∧ len ≤ x.len then s.window ⟨.view, x.fs, x.W, len, true, x.store, x.off⟩ [] else none
  | .copy x => do                        -- the implicit copy constructors
    let x ← s.objs[x]?
    if x.kind = .view then some { s with objs := s.objs ++ [x] }
    else do
      let r ← s.data x
      return s.alloc x.kind x.fs x.W r
  | .assign i y => do                    -- the implicit copy assignments
    let x ← s.objs[i]?
    let y ← s.objs[y]?
    if h : x.kind = y.kind ∧ x.fs = y.fs ∧ x.W = y.W ∧ x.len = y.len ∧ x.const = y.const then
      if x.kind = .view then some { s with objs := s.objs.set i y }
      else do
        let r ← s.data y
        s.put x (r.map (·.cast h.2.2.1.symm))
    else none
  | .set x op => do                      -- 348-351
    let x ← s.objs[x]?
    s.setOp x op
  | .index x n v => do                   -- 353-375
    let x ← s.objs[x]?
    s.setOp x (.values [(n, v)])

/-- A program. -/
def St.run (s : St) (p : List Stmt) : Option St := p.foldlM St.step s

/-- The start of a program. -/
def start : St := ⟨[], []⟩

/-- `x.get("n"_field)` and `x["n"_field]`: 344-346, 365, 368-371. -/
def St.get (s : St) (x n : Nat) : Option Nat := do
  let x ← s.objs[x]?
  if x.kind = .array then none else do
  let r ← s.data x
  Message.get x.W x.fs r n

/-- The comparison of `equiv`, field by field until two differ: 478, 580. -/
def equivGo (W V : Nat) (fs : List MField) (a : List (BitVec W)) (b : List (BitVec V)) :
    List MField → Option Bool
  | [] => some true
  | f :: gs => do
    let v ← Message.get W fs a f.name
    let w ← Message.get V fs b f.name
    if v = w then equivGo W V fs a b gs else return false

/-- `equivalent(x, y)`: 662-682 with 476-484, 578-586. The fields and the element types must be the same; of
different sizes the larger one is converted (439-445), which leaves its elements where they are. -/
def St.equivalent (s : St) (x y : Nat) : Option Bool := do
  let x ← s.objs[x]?
  let y ← s.objs[y]?
  if x.kind = .array ∨ y.kind = .array ∨ x.fs ≠ y.fs ∨ x.W ≠ y.W then none else do
  let a ← s.data x
  let b ← s.data y
  equivGo x.W y.W x.fs a b x.fs

/-- `auto [a, b, ...] = x;`: `message_destructure.hpp` 12-26; as many values as the definition has fields,
the `i`-th is that of its `i`-th field. -/
def St.destructure (s : St) (x : Nat) : Option (List Nat) := do
  let o ← s.objs[x]?
  o.fs.mapM fun f => s.get x f.name

end Verif.Object
