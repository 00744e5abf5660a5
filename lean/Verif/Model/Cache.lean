import Mathlib.Logic.Function.Basic
import Mathlib.Data.String.Defs
import Mathlib.Data.Nat.Notation

/-!
The caching decorators of `util/decorators.py` as a state machine on the file system.

A python value is an `Option β` (`none` is python's `None`), `ε` are the exceptions. A file is missing, holds a completely written
value, or is torn: the process died, or the pickling raised, after `open("wb")` truncated it. Reading a torn file raises (the
pickle stream has no final opcode). The wrapped function is pure, it may raise.
-/

set_option autoImplicit false

namespace Verif

/-- Contents of one path. -/
inductive CacheFile (β : Type)
  | missing
  | complete (v : Option β)
  | torn

/-- What happens to a write of the cache: it completes, the file cannot be opened, pickling raises after the file was opened, or the
process is killed before the file is opened, or while it is written. -/
inductive Fate
  | completes
  | openFails
  | pickleFails
  | killedBefore
  | killedInside
  deriving DecidableEq

/-- What the caller sees. -/
inductive Outcome (β ε : Type)
  | returned (v : Option β)
  | raised (e : ε)
  | torn
  | writeRaised
  | killed

/-- `CallType`, `util/decorators.py:112-117`. -/
inductive CallType
  | loadOrCallCached
  | loadOrCallUncached
  | callUncached
  | callCached

variable {α β ε π : Type} [DecidableEq π]

/-- The result of a call: what the caller sees, the files, and how often the wrapped function was called. -/
structure CallResult (β ε π : Type) where
  outcome : Outcome β ε
  files : π → CacheFile β
  calls : ℕ

/-- `CachedFunction.call_uncached`, `util/decorators.py:141-143`. -/
def callUncached (f : α → Except ε (Option β)) (files : π → CacheFile β) (a : α) : CallResult β ε π :=
  match f a with
  | .ok v => ⟨.returned v, files, 1⟩
  | .error e => ⟨.raised e, files, 1⟩

/-- `CachedFunction.call_cached`, `util/decorators.py:145-152`. -/
def callCached (f : α → Except ε (Option β)) (path : α → Option π) (files : π → CacheFile β) (a : α) (fate : Fate) : CallResult β ε π :=
  match f a with
  | .error e => ⟨.raised e, files, 1⟩
  | .ok v =>
    match path a with
    | none => ⟨.returned v, files, 1⟩
    | some p =>
      match fate with
      | .completes => ⟨.returned v, Function.update files p (.complete v), 1⟩
      | .openFails => ⟨.writeRaised, files, 1⟩
      | .pickleFails => ⟨.writeRaised, Function.update files p .torn, 1⟩
      | .killedBefore => ⟨.killed, files, 1⟩
      | .killedInside => ⟨.killed, Function.update files p .torn, 1⟩

/-- The result of `CachedFunction._load_cache`. -/
inductive Loaded (β : Type)
  | value (v : Option β)
  | raises

/-- `CachedFunction._load_cache`, `util/decorators.py:154-163`. -/
def loadCache (path : α → Option π) (files : π → CacheFile β) (a : α) : Loaded β :=
  match path a with
  | none => .value none
  | some p =>
    match files p with
    | .missing => .value none
    | .complete v => .value v
    | .torn => .raises

/-- `CachedFunction.load_or_call_uncached`, `util/decorators.py:165-171`. -/
def loadOrCallUncached (f : α → Except ε (Option β)) (path : α → Option π) (files : π → CacheFile β) (a : α) : CallResult β ε π :=
  match loadCache path files a with
  | .raises => ⟨.torn, files, 0⟩
  | .value (some v) => ⟨.returned (some v), files, 0⟩
  | .value none => callUncached f files a

/-- `CachedFunction.load_or_call_cached`, `util/decorators.py:173-181`. -/
def loadOrCallCached (f : α → Except ε (Option β)) (path : α → Option π) (files : π → CacheFile β) (a : α) (fate : Fate) : CallResult β ε π :=
  match loadCache path files a with
  | .raises => ⟨.torn, files, 0⟩
  | .value (some v) => ⟨.returned (some v), files, 0⟩
  | .value none => callCached f path files a fate

/-- `CachedFunction.__call__`, `util/decorators.py:183-193`. -/
def callWith (f : α → Except ε (Option β)) (path : α → Option π) (files : π → CacheFile β) (mode : CallType) (a : α) (fate : Fate) :
    CallResult β ε π :=
  match mode with
  | .callCached => callCached f path files a fate
  | .callUncached => callUncached f files a
  | .loadOrCallCached => loadOrCallCached f path files a fate
  | .loadOrCallUncached => loadOrCallUncached f path files a

/-- One step of a history: a call, or the deletion of a file by the user. -/
inductive CacheEvent (α π : Type)
  | call (mode : CallType) (a : α) (fate : Fate)
  | delete (p : π)

/-- The files after a history. Every call may be made by a new process: the decorator keeps no state in memory. -/
def runHistory (f : α → Except ε (Option β)) (path : α → Option π) : List (CacheEvent α π) → (π → CacheFile β) → (π → CacheFile β)
  | [], files => files
  | .call mode a fate :: es, files => runHistory f path es (callWith f path files mode a fate).files
  | .delete p :: es, files => runHistory f path es (Function.update files p .missing)

/-- A value saved by `np.save`: a numeric array, or an object array which is pickled. -/
inductive NpyFile (β : Type)
  | missing
  | numeric (v : β)
  | object (v : β)

/-- What a caller of a function decorated with `npy_cached` sees. -/
inductive NpyOutcome (β ε : Type)
  | returned (v : β)
  | raised (e : ε)
  | valueError

/-- `wrap` of `npy_cached`, `util/decorators.py:91-105`. The result of the function is `v`, `isObject v` says whether
`np.asanyarray(v)` has object type, and `conv v` is the array which `np.load(...)[()]` gives back. `np.save` appends `.npy` to
a name without it. Writes complete. -/
def npyCall {α β ε : Type} (f : α → Except ε β) (path : α → Option String) (isObject : β → Bool) (conv : β → β) (loadPickle savePickle : Bool)
    (files : String → NpyFile β) (a : α) : NpyOutcome β ε × (String → NpyFile β) × ℕ :=
  match path a with
  | none =>
    match f a with
    | .ok v => (.returned v, files, 1)
    | .error e => (.raised e, files, 1)
  | some p =>
    match files p with
    | .numeric v => (.returned v, files, 0)
    | .object v => if loadPickle then (.returned v, files, 0) else (.valueError, files, 0)
    | .missing =>
      match f a with
      | .error e => (.raised e, files, 1)
      | .ok v =>
        let target := if p.endsWith ".npy" then p else p ++ ".npy"
        if isObject v then
          if savePickle then (.returned v, Function.update files target (.object (conv v)), 1) else (.valueError, files, 1)
        else (.returned v, Function.update files target (.numeric (conv v)), 1)

/-- A sequence of calls of a function decorated with `npy_cached`: the outcomes. -/
def npyRun {α β ε : Type} (f : α → Except ε β) (path : α → Option String) (isObject : β → Bool) (conv : β → β) (loadPickle savePickle : Bool) :
    List α → (String → NpyFile β) → List (NpyOutcome β ε × ℕ)
  | [], _ => []
  | a :: as, files =>
    let r := npyCall f path isObject conv loadPickle savePickle files a
    (r.1, r.2.2) :: npyRun f path isObject conv loadPickle savePickle as r.2.1

end Verif
