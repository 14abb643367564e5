/-!
Model of `dump`, `dumps`, `load` and `loads` (`coax/utils/_misc.py`).

Objects live in a heap and refer to each other; an object is the list of its entries (attribute names, dict keys and
list positions are all positions here).  Values that cannot be changed (numbers, strings, arrays, ...) are atoms.

What `cloudpickle` and `lz4` do to bytes is not modelled: a byte-string stands for the objects that can be reached from the
dumped one, as they were when it was made.  The model keeps the whole heap of that moment; the objects in it that cannot
be reached from the dumped one cannot be seen by anyone.  Whether `cloudpickle` can serialise a value at all is a
parameter (`pickles`).
-/

namespace Coax.Persist

/-- A value: an atom or a reference to an object.  (`coax/utils/_misc.py:152-175`.) -/
inductive Val (α : Type _) where
  | atom (a : α)
  | ref (r : Nat)
deriving DecidableEq, Repr

/-- An object.  (`coax/utils/_misc.py:152-175`.) -/
abbrev Node (α : Type _) := List (Val α)

/-- All objects of a process.  (`coax/utils/_misc.py:152-175`.) -/
abbrev Heap (α : Type _) := List (Node α)

/-- What a byte-string made by `dumps` says.  (`coax/utils/_misc.py:236`.) -/
structure Bytes (α : Type _) where
  heap : Heap α
  val : Val α
deriving DecidableEq, Repr

variable {α : Type _}

/-- The same value among objects that have been given new addresses.  (`coax/utils/_misc.py:252, 267`.) -/
def Val.shift (d : Nat) : Val α → Val α
  | .atom a => .atom a
  | .ref r => .ref (d + r)

/-- `dumps`, `coax/utils/_misc.py:187-236`. -/
def dumps (h : Heap α) (v : Val α) : Bytes α := ⟨h, v⟩

/-- `loads`, `coax/utils/_misc.py:255-267`: new objects, linked among each other as the dumped ones were. -/
def loads (h : Heap α) (b : Bytes α) : Heap α × Val α :=
  (h ++ b.heap.map (fun n => n.map (Val.shift h.length)), b.val.shift h.length)

/-! ### Files -/

/-- Exceptions of file operations and of `pickle`.  (`coax/utils/_misc.py:180-184, 251-252`.) -/
inductive IOErr where
  | fileNotFound
  | fileExists
  | isADirectory
  | notADirectory
  /-- `EOFError` of `pickle.loads(b'')` -/
  | eof
  /-- whatever `pickle.dumps` raises -/
  | pickling
deriving DecidableEq, Repr

/-- The components of a path, relative to the working directory.  (`coax/utils/_misc.py:180`.) -/
abbrev Path := List String

/-- What can be at a path; a file may be empty.  (`coax/utils/_misc.py:180-184`.) -/
inductive Entry (α : Type _) where
  | dir
  | file (content : Option (Bytes α))

/-- The disk.  (`coax/utils/_misc.py:180-184`.) -/
abbrev Disk (α : Type _) := Path → Option (Entry α)

/-- Something new at a path.  (`coax/utils/_misc.py:180-184`.) -/
def Disk.put (d : Disk α) (p : Path) (e : Entry α) : Disk α := fun q => if q = p then some e else d q

/-- `os.makedirs(dirpath, exist_ok=True)`, `coax/utils/_misc.py:180-182`, below the directory `done`. -/
def makedirs (d : Disk α) (done : Path) : List String → Except IOErr (Disk α)
  | [] => .ok d
  | c :: cs =>
    match d (done ++ [c]) with
    | none => makedirs (d.put (done ++ [c]) .dir) (done ++ [c]) cs
    | some .dir => makedirs d (done ++ [c]) cs
    | some (.file _) => if cs = [] then .error .fileExists else .error .notADirectory

/-- `dump`, `coax/utils/_misc.py:133-184`.  The file is opened for writing, and thereby emptied, before the object is
serialised.  (`open('')` raises `FileNotFoundError`.) -/
def dump (pickles : Heap α → Val α → Bool) (d : Disk α) (h : Heap α) (v : Val α) (p : Path) : Disk α × Option IOErr :=
  if p = [] then (d, some .fileNotFound)
  else match makedirs d [] p.dropLast with
    | .error e => (d, some e)
    | .ok d =>
      match d p with
      | some .dir => (d, some .isADirectory)
      | _ => if pickles h v then (d.put p (.file (some (dumps h v))), none) else (d.put p (.file none), some .pickling)

/-- `load`, `coax/utils/_misc.py:239-252`. -/
def load (d : Disk α) (h : Heap α) (p : Path) : Except IOErr (Heap α × Val α) :=
  match d p with
  | none => .error .fileNotFound
  | some .dir => .error .isADirectory
  | some (.file none) => .error .eof
  | some (.file (some b)) => .ok (loads h b)

/-! ### Programs -/

/-- What programs can do with objects; variables are numbered.  (`coax/utils/_misc.py:152-175`, and everything else that
uses objects.) -/
inductive Cmd (α : Type _) where
  /-- a new variable for an atom -/
  | atom (a : α)
  /-- a new variable for entry `k` of the object in variable `i` -/
  | get (i k : Nat)
  /-- a new variable for a new object with the values of these variables as entries -/
  | new (is : List Nat)
  /-- entry `k` of the object in variable `i` becomes the value of variable `j` -/
  | set (i k j : Nat)
  /-- `append` the value of variable `j` -/
  | append (i j : Nat)
  /-- `i is j` -/
  | same (i j : Nat)
  /-- look at the value of a variable -/
  | look (i : Nat)

/-- What a program sees.  (`coax/utils/_misc.py:152-175`.) -/
inductive Obs (α : Type _) where
  | done
  | error
  | answer (b : Bool)
  | atom (a : α)
  | object (size : Nat)
deriving DecidableEq, Repr

/-- One command of a program with variables `env`.  A command that makes no sense raises.
(`coax/utils/_misc.py:152-175`, and everything else that uses objects.) -/
def exec [DecidableEq α] (h : Heap α) (env : List (Val α)) : Cmd α → Heap α × List (Val α) × Obs α
  | .atom a => (h, env ++ [.atom a], .done)
  | .get i k =>
    match env[i]? with
    | some (.ref r) =>
      match h[r]?.bind (fun n => n[k]?) with
      | some v => (h, env ++ [v], .done)
      | none => (h, env, .error)
    | _ => (h, env, .error)
  | .new is =>
    match is.mapM (fun i => env[i]?) with
    | some vs => (h ++ [vs], env ++ [.ref h.length], .done)
    | none => (h, env, .error)
  | .set i k j =>
    match env[i]?, env[j]? with
    | some (.ref r), some v =>
      match h[r]? with
      | some n => if k < n.length then (h.set r (n.set k v), env, .done) else (h, env, .error)
      | none => (h, env, .error)
    | _, _ => (h, env, .error)
  | .append i j =>
    match env[i]?, env[j]? with
    | some (.ref r), some v =>
      match h[r]? with
      | some n => (h.set r (n ++ [v]), env, .done)
      | none => (h, env, .error)
    | _, _ => (h, env, .error)
  | .same i j =>
    match env[i]?, env[j]? with
    | some v, some w => (h, env, .answer (decide (v = w)))
    | _, _ => (h, env, .error)
  | .look i =>
    match env[i]? with
    | some (.atom a) => (h, env, .atom a)
    | some (.ref r) => (match h[r]? with | some n => (h, env, .object n.length) | none => (h, env, .error))
    | none => (h, env, .error)

end Coax.Persist
