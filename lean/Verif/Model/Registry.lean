import Verif.Model.Milp
/-
Model of `rcpsp/rcpsp_solvers.py` and `rcpsp_multiskill/rcpsp_multiskill_solvers.py` (directory
`skdecide/builders/discrete_optimization`): the tables of solvers and `look_for_solver`.

Classes of solvers and problems are their names; the parameters of a solver are a number: its place in the
list, or `nb_iteration_lns` for `LNS_CP_MS_RCPSP_SOLVER`.  Prints are left out, apart from the
look-ups they make.
-/
namespace Verif.Registry
open Verif.Milp

/-- `solvers` (`rcpsp_solvers.py` 20-38, `rcpsp_multiskill_solvers.py` 18-32): under each key the classes with their parameters. -/
abbrev Table := Dict String (List (String × Nat))

/-- `solvers_compatibility` (45-72). -/
abbrev Compat := Dict String (List String)

/-- The inner loop of lines 42-43. -/
def fillKey (key : String) : List (String × Nat) → Dict String (String × Nat) → Dict String (String × Nat)
  | [], m => m
  | (s, p) :: l, m => fillKey key l (m.set s (key, p))

/-- `solvers_map` (40-43). -/
def fill : Table → Dict String (String × Nat) → Dict String (String × Nat)
  | [], m => m
  | (key, l) :: t, m => fill t (fillKey key l m)

/-- The loop of lines 78-80. -/
def available (cls : String) : Compat → List String
  | [] => []
  | (s, cs) :: c => if cls ∈ cs then s :: available cls c else available cls c

/-- `look_for_solver` (75-83), with the look-ups of line 82. -/
def look (t : Table) (c : Compat) (cls : String) : Except PyErr (List String) := do
  let l := available cls c
  let _ ← mapE (fun s => (fill t []).get s) l
  .ok l

/-- `solvers` of `rcpsp_solvers.py` (20-38). -/
def rcpspTable : Table :=
  [("lp", [("LP_RCPSP", 0), ("LP_MRCPSP", 1)]), ("greedy", [("PileSolverRCPSP", 0), ("PileSolverRCPSP_Calendar", 1)]),
   ("cp", [("CP_RCPSP_MZN", 0), ("CP_MRCPSP_MZN", 1)]), ("lns", [("LNS_LP_RCPSP_SOLVER", 0), ("LNS_CP_RCPSP_SOLVER", 1)]),
   ("lns-lp", [("LNS_LP_RCPSP_SOLVER", 0)]), ("lns-cp", [("LNS_CP_RCPSP_SOLVER", 0)]), ("ls", [("LS_RCPSP_Solver", 0)]),
   ("ga", [("GA_RCPSP_Solver", 0), ("GA_MRCPSP_Solver", 1)]), ("lns-cp-calendar", [("SolverWithCalendarIterative", 0)])]

/-- `solvers_compatibility` of `rcpsp_solvers.py` (45-72). -/
def rcpspCompat : Compat :=
  let s := "SingleModeRCPSPModel"
  let m := "MultiModeRCPSPModel"
  let c := "RCPSPModelCalendar"
  [("LP_RCPSP", [s]), ("LP_MRCPSP", [m, s, c]), ("PileSolverRCPSP", [s, m]), ("PileSolverRCPSP_Calendar", [s, m, c]), ("CP_RCPSP_MZN", [s]),
   ("CP_MRCPSP_MZN", [s, m, c]), ("LNS_LP_RCPSP_SOLVER", [s, m, c]), ("LNS_CP_RCPSP_SOLVER", [s, m, c]), ("LS_RCPSP_Solver", [s, m, c]),
   ("GA_RCPSP_Solver", [s]), ("GA_MRCPSP_Solver", [m]), ("SolverWithCalendarIterative", [c, s, m])]

/-- `solvers` of `rcpsp_multiskill_solvers.py` (18-32). -/
def skillTable : Table :=
  [("lp", [("LP_Solver_MRSCPSP", 0)]), ("cp", [("CP_MS_MRCPSP_MZN", 0)]), ("lns", [("LNS_CP_MS_RCPSP_SOLVER", 500)]),
   ("lns-cp", [("LNS_CP_MS_RCPSP_SOLVER", 20)]), ("ls", [("LS_RCPSP_Solver", 0)]), ("ga", [("GA_MSRCPSP_Solver", 0)]),
   ("lns-cp-calendar", [("SolverWithCalendarIterative", 0)])]

/-- `solvers_compatibility` of `rcpsp_multiskill_solvers.py` (39-44). -/
def skillCompat : Compat :=
  let b := "MS_RCPSPModel"
  let v := "MS_RCPSPModel_Variant"
  [("LP_Solver_MRSCPSP", [b, v]), ("SolverWithCalendarIterative", [b, v]), ("CP_MS_MRCPSP_MZN", [b, v]), ("LNS_CP_MS_RCPSP_SOLVER", [b, v]),
   ("LS_RCPSP_Solver", [b, v]), ("GA_MSRCPSP_Solver", [v])]

end Verif.Registry
