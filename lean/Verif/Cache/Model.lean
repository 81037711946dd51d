import Verif.Common.SMap

/-!
# Model of `Cache<T>`, `MagneticsCache` and `MasCache`

Source: `/repo/src/support/Cache.h`, `/repo/src/support/Cache.cpp`.
-/

namespace Verif.Cache

open Verif

variable {K T : Type} [LinearOrder K]

/-- `Cache<T>::clear` (Cache.h:17-19). -/
def clear (_ : SMap K T) : SMap K T := []

/-- `Cache<T>::size` (Cache.h:21-23). -/
def size (c : SMap K T) : Nat := c.length

/-- `Cache<T>::references` (Cache.h:34-42): the keys in map order. -/
def references (c : SMap K T) : List K := c.map Prod.fst

/-- `Cache<T>::read()` (Cache.h:44-51): all the values in map order. -/
def readAll (c : SMap K T) : List T := c.map Prod.snd

/-- `Cache<T>::read(reference)` (Cache.h:57-63); `none` is the `runtime_error`. -/
def read (c : SMap K T) (ref : K) : Option T := c.find? ref

/-- `Cache<T>::read(references)` (Cache.h:65-75): missing references are skipped. -/
def readMany (c : SMap K T) : List K → List T
  | [] => []
  | r :: rs => match c.find? r with
    | some v => v :: readMany c rs
    | none => readMany c rs

/-- `Cache<T>::load` (Cache.h:80-82): `_cache[reference] = value`. -/
def load (c : SMap K T) (ref : K) (v : T) : SMap K T := c.insert ref v

/-- `Cache<T>::evict(references)` (Cache.h:84-93): returns the evicted values and the new cache. -/
def evictMany (c : SMap K T) : List K → List T × SMap K T
  | [] => ([], c)
  | r :: rs => match c.find? r with
    | some v => let q := evictMany (c.erase r) rs; (v :: q.1, q.2)
    | none => evictMany c rs

/-- `Cache<T>::evict(reference)` (Cache.h:95-103); `none` is the `runtime_error`. -/
def evict (c : SMap K T) (ref : K) : Option (T × SMap K T) :=
  match c.find? ref with
  | some v => some (v, c.erase ref)
  | none => none

/-- The public operations of `Cache<T>` (Cache.h:17-103). -/
inductive Op (K T : Type) where
  | load (ref : K) (v : T)
  | evict (ref : K)
  | evictMany (refs : List K)
  | clear
  | read (ref : K)
  | readMany (refs : List K)
  | readAll
  | references
  | size

/-- What a call hands back to its caller. -/
inductive Out (K T : Type) where
  | unit
  | value (v : T)
  | values (vs : List T)
  | refs (ks : List K)
  | num (n : Nat)
  | threw
  deriving DecidableEq

/-- One call on a cache: new content and observable result (Cache.h:17-103). -/
def step (c : SMap K T) : Op K T → SMap K T × Out K T
  | .load r v => (load c r v, .unit)
  | .evict r => match evict c r with
    | some (v, c') => (c', .value v)
    | none => (c, .threw)
  | .evictMany rs => let q := evictMany c rs; (q.2, .values q.1)
  | .clear => (clear c, .unit)
  | .read r => match read c r with
    | some v => (c, .value v)
    | none => (c, .threw)
  | .readMany rs => (c, .values (readMany c rs))
  | .readAll => (c, .values (readAll c))
  | .references => (c, .refs (references c))
  | .size => (c, .num (size c))

/-- The content after a history of calls, oldest call first. -/
def run (c : SMap K T) (ops : List (Op K T)) : SMap K T := ops.foldl (fun c op => (step c op).1) c

/-! ## Energy memo of `MagneticsCache` / `MasCache` -/

/-- The catalogue together with the energy memo of one thread (Cache.h:118-156).
Simplification: only the calling thread's `thread_local` memo is represented; energies are abstract
elements of a linear order `E` (no NaN). -/
structure MCache (K T E : Type) where
  store : SMap K T
  energy : SMap K E

variable {E : Type} [LinearOrder E]

/-- `compute_energy_cache` (Cache.cpp:57-63): clear and refill the memo from the store;
`f` stands for `MagneticEnergy().calculate_core_maximum_magnetic_energy`. -/
def computeEnergy (f : T → E) (m : MCache K T E) : MCache K T E :=
  { m with energy := SMap.insertAll [] (m.store.map (fun kv => (kv.1, f kv.2))) }

/-- `std::max_element` keeping the first of equal maxima, as used in Cache.cpp:65-70. -/
def maxElement : SMap K E → Option (K × E)
  | [] => none
  | a :: l => some (l.foldl (fun best x => if best.2 < x.2 then x else best) a)

/-- `get_maximum_magnetic_energy_in_cache` (Cache.cpp:65-70); `none` is the exception. -/
def maximumEnergy (m : MCache K T E) : Option (K × E) := maxElement m.energy

/-- `filter_magnetics_by_energy` (Cache.cpp:72-81). -/
def filterByEnergy (m : MCache K T E) (lo : E) (hi : Option E) : List K :=
  (m.energy.filter (fun kv => match hi with
    | some h => decide (lo ≤ kv.2) && decide (kv.2 ≤ h)
    | none => decide (lo ≤ kv.2))).map Prod.fst

/-- `read_magnetic_energy_cache(reference)` (Cache.cpp:87-93); `none` is the exception. -/
def readEnergy (m : MCache K T E) (ref : K) : Option E := m.energy.find? ref

/-- `MagneticsCache::load` on an unfrozen catalogue (Cache.h:129-132): the memo is not touched. -/
def mload (m : MCache K T E) (ref : K) (v : T) : MCache K T E := { m with store := load m.store ref v }

/-- Inherited `evict(reference)` (Cache.h:95-103): the memo is not touched. -/
def mevict (m : MCache K T E) (ref : K) : MCache K T E :=
  match evict m.store ref with
  | some (_, c) => { m with store := c }
  | none => m

/-- `MagneticsCache::clear` / `MasCache::clear` (Cache.cpp:31-35, 95-98). -/
def mclear (_ : MCache K T E) : MCache K T E := { store := [], energy := [] }

end Verif.Cache
