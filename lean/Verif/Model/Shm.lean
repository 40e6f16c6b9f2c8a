import Verif.Model.Py
/-
Model of the shared-memory registers of `ShmParallelDomain`, `skdecide/domains.py` lines 620-846: their layout, writing the arguments of a call,
reading them in the worker, and the same for results.

Simplifications: types are numbers instead of names; an array of the shared memory is one cell; `encode` replaces the cells it is given by the encoding of the
value, and `decode` returns the type together with the cells; the number of cells of an encoding is a property of the type.  The flags and
conditions that wake up the worker and the caller are not modelled here (see the model of the pipe-based variant).
-/
namespace Verif.Shm

/-- One element of `shm_proxy.register()`: the type, how many registers it gets, and how many arrays `initialize` makes for it. -/
structure Entry where
  ty : Nat
  count : Nat
  size : Nat

/-- `_shm_sizes`, `_shm_registers`, `_shm_types` and `_rsize` (719-724). -/
structure Layout where
  sizes : Dict Nat Nat
  registers : Dict Nat (Nat × Nat)
  types : Dict Nat Nat
  rsize : Nat
  deriving DecidableEq

/-- `self._shm_types.update({kk: r[0] for kk in range(j, j + r[1] * len(m), len(m))})` (735, 743). -/
def addTypes (ty j size : Nat) : Nat → Dict Nat Nat → Dict Nat Nat
  | 0, types => types
  | count + 1, types => (addTypes ty j size count types).set (j + count * size) ty

/-- The loops of lines 727-745 for the first worker; a type without arrays makes `range` raise `ValueError`. -/
def layoutFrom : List Entry → Nat → Layout → Except PyErr Layout
  | [], _, l => .ok l
  | e :: es, j, l =>
    if e.count = 0 then layoutFrom es j l
    else if e.size = 0 then .error .valueError
    else layoutFrom es (j + e.count * e.size)
      { sizes := l.sizes.set e.ty e.size, registers := l.registers.set e.ty (j, j + e.count * e.size),
        types := addTypes e.ty j e.size e.count l.types, rsize := l.rsize + e.count * e.size }

/-- The constructor (719-745). -/
def layout (es : List Entry) : Except PyErr Layout := layoutFrom es 0 { sizes := [], registers := [], types := [], rsize := 0 }

/-- Replace the cells from `i` on (as far as they exist) by `vs`. -/
def write (mem : List V) (i : Nat) : List V → List V
  | [] => mem
  | v :: vs => write (mem.set i v) (i + 1) vs

/-- Assignment to `shm_params[i][j]`. -/
def setParam (params : List Int) (j : Nat) (k : Nat) : Except PyErr (List Int) :=
  if j < params.length then .ok (params.set j (k : Int)) else .error .indexError

/-- The register for the next value of a type (768-780, 665-678); `inc` is by how much the counter of a type grows per value. -/
def register (l : Layout) (inc : Nat → Nat) (counters : Dict Nat Nat) (ty : Nat) : Except PyErr Nat := do
  let (start, stop) ← l.registers.get ty
  match counters.get? ty with
  | some c => do
    let size ← l.sizes.get ty
    if c + inc size ≥ stop then .error .indexError else .ok (c + inc size)
  | none => .ok start

/-- The loop that stores values, one after the other, with their types and encodings (766-787, 663-684).  `base` is where the registers of the worker
start.  The result is what has been stored when the loop ends or an exception is raised. -/
def store (l : Layout) (inc : Nat → Nat) (base : Nat) : List (Nat × List V) → Nat → Dict Nat Nat → List Int → List V → List Int × List V × Option PyErr
  | [], _, _, params, mem => (params, mem, none)
  | (ty, enc) :: rest, j, counters, params, mem =>
    match register l inc counters ty with
    | .error e => (params, mem, some e)
    | .ok k =>
      match setParam params j k with
      | .error e => (params, mem, some e)
      | .ok params' => store l inc base rest (j + 1) (counters.set ty k) params' (write mem (base + k) enc)

/-- `launch` (766-787) for worker `i`: the counter of a type grows by the number of its arrays. -/
def storeArgs (l : Layout) (nparams i : Nat) (args : List (Nat × List V)) (mem : List V) : List Int × List V × Option PyErr :=
  store l id (i * l.rsize) args 0 [] (List.replicate nparams (-1)) mem

/-- The worker `i` after a call (657-684): the counter of a type grows by one. -/
def storeResults (l : Layout) (nparams i : Nat) (results : List (Nat × List V)) (mem : List V) : List Int × List V × Option PyErr :=
  store l (fun _ => 1) (i * l.rsize) results 0 [] (List.replicate nparams (-1)) mem

/-- Reading values back (645-654, 803-813): the same in the worker and in `get_result`. -/
def load (l : Layout) (base : Nat) (mem : List V) : List Int → Except PyErr (List (Nat × List V))
  | [] => .ok []
  | p :: ps =>
    if p < 0 then .ok [] else do
      let ty ← l.types.get p.toNat
      let size ← l.sizes.get ty
      let rest ← load l base mem ps
      .ok ((ty, (mem.drop (base + p.toNat)).take size) :: rest)

end Verif.Shm
