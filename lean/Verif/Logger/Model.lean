/-! # Model of the logger (src/support/Logger.h) -/

namespace Verif.Logger

/-- `LogLevel` (src/support/Logger.h:29-37). -/
inductive Level where
  | trace | debug | info | warning | error | critical | off
  deriving DecidableEq, Repr

/-- The underlying value of a level (src/support/Logger.h:29-37). -/
def Level.rank : Level → Nat
  | .trace => 0 | .debug => 1 | .info => 2 | .warning => 3 | .error => 4 | .critical => 5 | .off => 6

/-- What a sink is given. The timestamp (src/support/Logger.h:312-328) is not modelled. -/
structure Entry where
  level : Level
  origin : String
  message : String
  deriving DecidableEq

/-- State of the logger: `_level`, `_sinks` (src/support/Logger.h:330-332) and, per delivery, which sink got
which entry, in order of time. Sinks are identified by a number; `0` is the console sink of the
constructor. -/
structure State where
  level : Level
  sinks : List Nat
  out : List (Nat × Entry)
  deriving DecidableEq

/-- The constructor (src/support/Logger.h:306-310): console sink, level ERROR. -/
def init : State := ⟨.error, [0], []⟩

/-- The calls of the public interface that change what is logged (src/support/Logger.h:220-268). The
convenience methods 280-303 are `log` with a fixed level. -/
inductive Call where
  | setLevel (l : Level)
  | addSink (s : Nat)
  | clearSinks
  | log (e : Entry)
  deriving DecidableEq

/-- The loop writing to every sink (src/support/Logger.h:264-266). -/
def deliver (st : State) (e : Entry) : State :=
  { st with out := st.out ++ st.sinks.map (fun s => (s, e)) }

/-- One call in a single-threaded program (src/support/Logger.h:220-268). -/
def step (st : State) : Call → State
  | .setLevel l => { st with level := l }
  | .addSink s => { st with sinks := st.sinks ++ [s] }
  | .clearSinks => { st with sinks := [] }
  | .log e => if e.level.rank < st.level.rank then st else deliver st e

/-- A single-threaded history. -/
def run (h : List Call) : State := h.foldl step init

/-- What sink `s` has received, in order. -/
def received (st : State) (s : Nat) : List Entry := (st.out.filter (fun p => p.1 = s)).map Prod.snd

/-! ## Several threads

`log` reads the level without the lock (src/support/Logger.h:255-257) and then writes to the sinks while
holding it (259-266); all other calls are one locked step. -/

/-- The atomic steps of a multi-threaded program. -/
inductive Atomic where
  | setLevel (l : Level)
  | addSink (s : Nat)
  | clearSinks
  /-- thread `t` enters `log(e)` and compares the level -/
  | check (t : Nat) (e : Entry)
  /-- thread `t`, having passed the comparison, takes the lock and writes to the sinks -/
  | write (t : Nat)
  deriving DecidableEq

/-- State of a multi-threaded program: the logger and, per thread, the entry that has passed the comparison
and is not yet written. -/
structure MState where
  st : State
  pending : Nat → Option Entry

def minit : MState := ⟨init, fun _ => none⟩

/-- One atomic step (src/support/Logger.h:220-268). A `write` by a thread with nothing pending does
nothing. -/
def mstep (m : MState) : Atomic → MState
  | .setLevel l => { m with st := step m.st (.setLevel l) }
  | .addSink s => { m with st := step m.st (.addSink s) }
  | .clearSinks => { m with st := step m.st .clearSinks }
  | .check t e => if e.level.rank < m.st.level.rank then m
                  else { m with pending := fun u => if u = t then some e else m.pending u }
  | .write t => match m.pending t with
    | none => m
    | some e => ⟨deliver m.st e, fun u => if u = t then none else m.pending u⟩

def mrun (h : List Atomic) : MState := h.foldl mstep minit

end Verif.Logger
