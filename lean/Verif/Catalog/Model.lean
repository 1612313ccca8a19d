/-!
# Model of the string catalog generator

`/repo/python/cib/gen_str_catalog.py`. A text is a list of code points. Python's `hash` is an arbitrary
function, different in each run of the script (string hashes are randomised). A Python dictionary is an
association list in insertion order.

Left out: the regular expressions that read the symbols and the text of the generated C++ and XML;
enumerations; extra JSON inputs.
-/
namespace Verif.Catalog

abbrev Text := List Nat

/-- `Message` (147-229), or `Module` (232-284) with no arguments. `id` is -1 when there is no explicit
one; `origId` is the id in the C++ type (165, 210); `extra` stands for the tags, the named arguments and
the suffix of the id, all parts of the C++ type. -/
structure Item where
  text : Text
  args : List Text
  id : Int
  origId : Int
  extra : Nat
deriving DecidableEq, Repr

/-- The C++ type of the message, whose `catalog<…>()` is to be defined: `to_cpp_type` (209-210). -/
def Item.cppType (i : Item) : Text × List Text × Int × Nat := (i.text, i.args, i.origId, i.extra)

/-- A key of the text and the arguments. -/
abbrev Key := Text → List Text → Nat

/-- `Message.key`: 212-213. -/
def msgKey (hash : Text → Nat) : Key := fun text args => hash text ^^^ hash args.flatten

/-- `Module.key`: 270-271. -/
def modKey (hash : Text → Nat) : Key := fun text _ => hash text

/-- The key of a message. -/
def Key.of (key : Key) (i : Item) : Nat := key i.text i.args

/-! ## Dictionaries -/

abbrev Dict := List (Nat × Item)

/-- `d[k] = v`: an existing key keeps its place. -/
def Dict.set (d : Dict) (k : Nat) (v : Item) : Dict :=
  match d with
  | [] => [(k, v)]
  | e :: d => if e.1 = k then (k, v) :: d else e :: Dict.set d k v

/-- `d[k]`. -/
def Dict.get? (d : Dict) (k : Nat) : Option Item := (d.find? fun e => e.1 = k).map (·.2)

/-- `d.values()`. -/
def Dict.values (d : Dict) : List Item := d.map (·.2)

/-- `{m.key(): m for m in items}`, on top of `d`. -/
def Dict.addAll (key : Key) (d : Dict) : List Item → Dict
  | [] => d
  | m :: ms => Dict.addAll key (d.set (key.of m) m) ms

/-! ## Sorting -/

/-- `<` on strings. -/
def textLt : Text → Text → Bool
  | _, [] => false
  | [], _ :: _ => true
  | a :: s, b :: t => if a < b then true else if b < a then false else textLt s t

/-- `sorted` by `__lt__` (228-229) is the stable sort; this is the stable insertion sort. -/
def insert (x : Item) : List Item → List Item
  | [] => [x]
  | y :: ys => if textLt y.text x.text then y :: insert x ys else x :: y :: ys

def sort : List Item → List Item
  | [] => []
  | x :: xs => insert x (sort xs)

/-! ## Ids -/

/-- `Intervals.contains`: 51-52. -/
def contains (reserved : List (Nat × Nat)) (v : Nat) : Bool :=
  reserved.any fun x => x.1 ≤ v && v ≤ x.2

/-- `old_msg_ids.__contains__(x) or reserved_ids.contains(x)`: 321-325. -/
def taken (stables : Dict) (reserved : List (Nat × Nat)) (v : Nat) : Bool :=
  stables.values.any (fun m => m.id = (v : Int)) || contains reserved v

/-- A number such that nothing from it on is taken; only used to bound the search. -/
def bound (stables : Dict) (reserved : List (Nat × Nat)) : Nat :=
  (stables.values.map fun m => m.id.toNat + 1).sum + (reserved.map fun x => x.2 + 1).sum

/-- `next` on `itertools.filterfalse(p, itertools.count(0))` standing at `n`: 322-325. -/
def search (p : Nat → Bool) : Nat → Nat → Nat
  | n, 0 => n
  | n, fuel + 1 => if p n then search p (n + 1) fuel else n

/-- `next(gen)`: 313; the new state of the generator is the id plus one. -/
def nextId (stables : Dict) (reserved : List (Nat × Nat)) (n : Nat) : Nat :=
  search (taken stables reserved) n (bound stables reserved - n)

/-- The loop of `assign_ids_with` with `get_id`: 300-313. -/
def assignLoop (key : Key) (stables : Dict) (reserved : List (Nat × Nat)) : Nat → List Item → List Item
  | _, [] => []
  | n, i :: is =>
    match stables.get? (key.of i) with
    | some s => { i with id := s.id } :: assignLoop key stables reserved n is
    | none =>
      let k := nextId stables reserved n
      { i with id := (k : Int) } :: assignLoop key stables reserved (k + 1) is

/-- The part of `assign_ids` that adds the messages with an explicit id: 315-319. -/
def withExplicit (key : Key) (items : List Item) (stables : Dict) : Dict :=
  stables.addAll key (items.filter fun m => m.id ≠ -1)

/-- `assign_ids` (307-337) for the messages, or with no reserved ids for the modules. -/
def assignIds (key : Key) (items : List Item) (stables : Dict) (reserved : List (Nat × Nat)) :
    List Item :=
  assignLoop key (withExplicit key items stables) reserved 0 (sort items)

/-- `unique_messages`: 350-354. -/
def unique (key : Key) (items : List Item) : List Item := (Dict.addAll key [] items).values

/-- `read_input`: 340-356. -/
def readInput (key : Key) (items : List Item) (stables : Dict) (reserved : List (Nat × Nat)) :
    List Item :=
  assignIds key (unique key items) stables reserved

/-- `read_stable`: 486-501, with the messages in each file. `update` puts the list of a file in the place
of the list before it. -/
def readStable (key : Key) (files : List (List Item)) : Dict :=
  Dict.addAll key [] (files.foldl (fun _ f => f) [])

/-- The entry in the JSON: `to_json` (195-203) does not have the original id. -/
def Item.json (i : Item) : Item := { i with origId := i.id }

/-- `write_json`: 452-466. -/
def appendStable (out : List Item) : List Item → List Item
  | [] => out
  | m :: ms => appendStable (if m.json ∈ out then out else out ++ [m.json]) ms

/-- One run (`main`, 742-796): the messages with their ids, and the messages of the JSON output. -/
def run (key : Key) (files : List (List Item)) (reserved : List (Nat × Nat)) (forget : Bool)
    (items : List Item) : List Item × List Item :=
  let stables := readStable key files
  let out := readInput key items stables reserved
  let old := if forget then [] else (withExplicit key (unique key items) stables).values
  (out, appendStable (out.map Item.json) old)

/-- `check_module_limit`: 634-639. -/
def checkModuleLimit (modules : List Item) (max : Int) : Option Unit :=
  if modules.any fun m => m.id > max then none else some ()

/-- The run for the modules, which stops with an error when an id is above the limit. -/
def runModules (key : Key) (files : List (List Item)) (forget : Bool) (max : Int)
    (items : List Item) : Option (List Item × List Item) := do
  let r := run key files [] forget items
  checkModuleLimit r.1 max
  return r

/-! ## Splitting arguments -/

/-- `find_arg_split_pos`: 17-27, on the rest of the string: what stands before the comma, and what
stands after it if there is one. `lt`, `gt` and `,` are the characters. -/
def findSplit (lt gt comma : Nat) : Int → Text → Text × Option Text
  | _, [] => ([], none)
  | n, c :: s =>
    if c = gt then let r := findSplit lt gt comma (n - 1) s; (c :: r.1, r.2)
    else if c = lt then let r := findSplit lt gt comma (n + 1) s; (c :: r.1, r.2)
    else if c = comma ∧ n = 0 then ([], some s)
    else let r := findSplit lt gt comma n s; (c :: r.1, r.2)

/-- `str.strip`. -/
def strip (space : Nat) (s : Text) : Text :=
  ((s.dropWhile (· = space)).reverse.dropWhile (· = space)).reverse

/-- `split_args`: 30-37; the fuel is the length of the string. -/
def splitArgs (lt gt comma space : Nat) : Nat → Text → List Text
  | 0, _ => []
  | _, [] => []
  | fuel + 1, s =>
    match findSplit lt gt comma 0 s with
    | (a, none) => [strip space a]
    | (a, some s) => strip space a :: splitArgs lt gt comma space fuel s

end Verif.Catalog
