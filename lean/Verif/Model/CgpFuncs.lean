import Mathlib.Analysis.SpecialFunctions.Pow.Real
import Mathlib.Analysis.SpecialFunctions.Trigonometric.Arctan
import Verif.Model.Cgp
/-
Model of `skdecide/hub/solver/cgp/pycgp/cgpfunctions.py` and of the default library of functions (`skdecide/hub/solver/cgp/cgp.py` 261-283).

Floats are real numbers; the functions are those of Mathlib.  `args` is a list; an item past its end raises `IndexError`.
-/
namespace Verif.Cgp
open Real

noncomputable section

/-- `round` of Python: halves go to the even neighbour. -/
def pyRound (x : ℝ) : ℤ :=
  if x - ⌊x⌋ < 1 / 2 then ⌊x⌋ else if 1 / 2 < x - ⌊x⌋ then ⌊x⌋ + 1 else if ⌊x⌋ % 2 = 0 then ⌊x⌋ else ⌊x⌋ + 1

/-- A function of one argument. -/
def un (f : ℝ → Except PyErr ℝ) (l : List ℝ) : Except PyErr ℝ :=
  match l with
  | x :: _ => f x
  | [] => .error .indexError

/-- A function of two arguments. -/
def bin (f : ℝ → ℝ → ℝ) (l : List ℝ) : Except PyErr ℝ :=
  match l with
  | x :: y :: _ => .ok (f x y)
  | _ => .error .indexError

/-- `f_sum` (8-9). -/
def fSum := bin fun x y => 0.5 * (x + y)
/-- `f_aminus` (11-12). -/
def fAminus := bin fun x y => 0.5 * |x - y|
/-- `f_mult` (14-15). -/
def fMult := bin fun x y => x * y
/-- `f_exp` (17-18). -/
def fExp := un fun x => .ok ((exp x - 1) / (exp 1 - 1))
/-- `f_abs` (20-21). -/
def fAbs := un fun x => .ok |x|
/-- `f_sqrt` (23-24). -/
def fSqrt := un fun x => .ok (√|x|)
/-- `f_sqrtxy` (26-27). -/
def fSqrtxy := bin fun x y => √(x * x + y * y) / √2
/-- `f_squared` (29-30). -/
def fSquared := un fun x => .ok (x * x)
/-- `f_pow` (32-33). -/
def fPow := bin fun x y => |x| ^ |y|
/-- `f_one` (35-36). -/
def fOne (_ : List ℝ) : Except PyErr ℝ := .ok 1
/-- `f_zero` (38-39). -/
def fZero (_ : List ℝ) : Except PyErr ℝ := .ok 0
/-- `f_inv` (41-45). -/
def fInv := un fun x => .ok (if x ≠ 0 then x / |x| else 0)
/-- `f_gt` (47-48). -/
def fGt := bin fun x y => if x > y then 1 else 0
/-- `f_acos` (50-51): `math.acos` raises `ValueError` outside of its domain. -/
def fAcos := un fun x => if -1 ≤ x ∧ x ≤ 1 then .ok (arccos x / π) else .error .valueError
/-- `f_asin` (54-55). -/
def fAsin := un fun x => if -1 ≤ x ∧ x ≤ 1 then .ok (2 * arcsin x / π) else .error .valueError
/-- `f_atan` (57-58). -/
def fAtan := un fun x => .ok (4 * arctan x / π)
/-- `f_min` (60-61): of all arguments; `ValueError` if there are none. -/
def fMin (l : List ℝ) : Except PyErr ℝ :=
  match l with
  | [] => .error .valueError
  | x :: l => .ok (l.foldl min x)
/-- `f_max` (63-64). -/
def fMax (l : List ℝ) : Except PyErr ℝ :=
  match l with
  | [] => .error .valueError
  | x :: l => .ok (l.foldl max x)
/-- `f_round` (66-67). -/
def fRound := un fun x => .ok (pyRound x : ℝ)
/-- `f_floor` (69-70). -/
def fFloor := un fun x => .ok (⌊x⌋ : ℝ)
/-- `f_ceil` (72-73). -/
def fCeil := un fun x => .ok (⌈x⌉ : ℝ)

/-- `_get_default_function_lib` (cgp.py 261-283), functions and arities. -/
def defaultLib : List ((List ℝ → Except PyErr ℝ) × Nat) :=
  [(fSum, 2), (fAminus, 2), (fMult, 2), (fExp, 2), (fAbs, 1), (fSqrt, 1), (fSqrtxy, 2), (fSquared, 1), (fPow, 2), (fOne, 0), (fZero, 0), (fInv, 1),
    (fGt, 2), (fAsin, 1), (fAcos, 1), (fAtan, 1), (fMin, 2), (fMax, 2), (fRound, 1), (fFloor, 1), (fCeil, 1)]

/-- The value of a call, 0 where it raises. -/
def valueOr (f : List ℝ → Except PyErr ℝ) (l : List ℝ) : ℝ :=
  match f l with
  | .ok v => v
  | .error _ => 0

/-- A program with the default library; where a function raises, 0 is taken instead (by `C202_range` this does not happen within the range). -/
def defaultConfig (inputs outputs cols rows : Nat) : Config ℝ :=
  { inputs := inputs, outputs := outputs, cols := cols, rows := rows, library := defaultLib.map (fun f => ⟨valueOr f.1, f.2⟩), zero := 0 }

end

end Verif.Cgp
