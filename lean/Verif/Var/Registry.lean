/-!
# The variable registry (`clpoly/variable.hh`, `clpoly/variable.cc`)

The three static members of `class variable` as a state, and the public static functions as steps.
`std::unordered_map<std::string,size_t>` is modelled as a partial function, `std::vector` as a list
(`free_serial` with its back at the head of the list).  A failing `assert` ends the process when the
library is built without `NDEBUG` (`dbg = true`); with `-D NDEBUG` (Makefile:16, the release build)
the assertion is absent and execution goes on (`dbg = false`).
-/

namespace CLPoly.Var

/-- variable.hh:22-24: the static members `variables`, `name_map`, `free_serial`. -/
structure Reg where
  variables : List String
  nameMap : String → Option Nat
  free : List Nat

/-- variable.cc:9-11: `variables={""}`, `name_map={{"",0}}`, `free_serial` empty. -/
def Reg.init : Reg := ⟨[""], fun n => if n = "" then some 0 else none, []⟩

/-- variable.hh:108 / 127: `name_map[name]=s`. -/
def mapSet (f : String → Option Nat) (n : String) (s : Nat) : String → Option Nat :=
  fun k => if k = n then some s else f k

/-- variable.hh:169: `name_map.erase(name)`. -/
def mapErase (f : String → Option Nat) (n : String) : String → Option Nat :=
  fun k => if k = n then none else f k

/-- variable.hh:104-122: `init_variable(name)`. -/
def Reg.initNamed (r : Reg) (n : String) : Reg × Nat :=
  match r.free with
  | [] => (⟨r.variables ++ [n], mapSet r.nameMap n r.variables.length, []⟩, r.variables.length)
  | s :: fs => (⟨r.variables.set s n, mapSet r.nameMap n s, fs⟩, s)

/-- variable.hh:127, 135: `"#var_" + std::to_string(k)`. -/
def autoName (k : Nat) : String := "#var_" ++ toString k

/-- variable.hh:123-143: `init_variable()`. -/
def Reg.initAuto (r : Reg) : Reg × Nat :=
  match r.free with
  | [] => (⟨r.variables ++ [autoName r.variables.length],
      mapSet r.nameMap (autoName r.variables.length) r.variables.length, []⟩, r.variables.length)
  | s :: fs => (⟨r.variables.set s (autoName s), mapSet r.nameMap (autoName s) s, fs⟩, s)

/-- variable.hh:144-147: `'a'<=c<='z'` parses as `('a'<=c)<='z'`, which is always true, so only the
emptiness test is left. -/
def isUserDefName (n : String) : Bool := n ≠ ""

/-- variable.hh:165-173: `del_variable(serial)`. -/
def Reg.delSerial (r : Reg) (s : Nat) : Reg :=
  match r.variables[s]? with
  | none => r
  | some n => if n = "" then r else ⟨r.variables.set s "", mapErase r.nameMap n, s :: r.free⟩

/-- variable.hh:174-181: `del_variable(name)`. -/
def Reg.delName (r : Reg) (n : String) : Reg :=
  match r.nameMap n with
  | none => r
  | some s => r.delSerial s

/-- The public static interface of the registry. -/
inductive Op where
  /-- `get_variable(name)`, also the constructor `variable(name)` -/
  | get (n : String)
  /-- `new_variable(name)` -/
  | newNamed (n : String)
  /-- `new_variable()` -/
  | newAuto
  /-- `get_variable(serial)` -/
  | getSerial (s : Nat)
  /-- `name()` of a handle with this serial -/
  | name (s : Nat)
  /-- `del_variable(serial)` -/
  | delSerial (s : Nat)
  /-- `del_variable(name)` -/
  | delName (n : String)
  deriving DecidableEq

/-- What a caller sees: nothing, the serial of the returned variable, or a name. -/
inductive Res where
  | done
  | var (s : Nat)
  | str (n : String)
  deriving DecidableEq

/-- One call.  `none`: the process was stopped by a failed assertion (debug build), or the handle used
in `name()` is out of range (undefined behaviour). -/
def step (dbg : Bool) (r : Reg) : Op → Option (Reg × Res)
  -- variable.hh:148-157
  | .get n =>
    match r.nameMap n with
    | none => if dbg && !isUserDefName n then none
        else some ((r.initNamed n).1, .var (r.initNamed n).2)
    | some s => some (r, .var s)
  -- variable.hh:158-163
  | .newNamed n =>
    if dbg && ((r.nameMap n).isSome || !isUserDefName n) then none
    else some ((r.initNamed n).1, .var (r.initNamed n).2)
  -- variable.hh:190-193
  | .newAuto => some (r.initAuto.1, .var r.initAuto.2)
  -- variable.hh:184-188
  | .getSerial s =>
    if dbg && (r.variables[s]? = none || r.variables[s]? = some "") then none else some (r, .var s)
  -- variable.hh:68
  | .name s => (r.variables[s]?).map fun n => (r, .str n)
  | .delSerial s => some (r.delSerial s, .done)
  | .delName n => some (r.delName n, .done)

/-- A history: the calls in order; the final registry and the results seen, or `none` when some call
ended the process. -/
def run (dbg : Bool) (r : Reg) : List Op → Option (Reg × List Res)
  | [] => some (r, [])
  | o :: os => match step dbg r o with
    | none => none
    | some (r', x) => (run dbg r' os).map fun (r'', xs) => (r'', x :: xs)

end CLPoly.Var
