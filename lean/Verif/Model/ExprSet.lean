/-
Model of /repo/probayes/expr.py 94-124, 140-162 and, for numbers and entries of arrays, 164-223, 272-277:
expressions that are set again.
-/
import Verif.Base.Dict
import Mathlib.Data.Real.Basic

namespace Probayes

/-- A Sympy expression: the names of its symbols in the order in which they are listed, its value at an assignment
of numbers, taken to be real, and whether one of the two functions of lines 10-14 makes a function of arrays of it
(their exceptions are passed over at line 158). -/
structure SymFn where
  syms : List Str
  fn : (Str → ℝ) → ℝ
  vec : Bool

/-- An `Expr` (expr.py:80-86): its expression, whose symbols are listed in `symbols`, the expression whose `subs` is the
evaluation function without type, and the expression of which the function of arrays was made, if any. -/
structure ExprHeld where
  cur : SymFn
  subs : SymFn
  arrays : Option SymFn

/-- expr.py:149-157: the functions that there are are not replaced, and none is added for an expression without
symbols. -/
def efunArrays (e : SymFn) : Option SymFn → Option SymFn
  | some f => some f
  | none => if e.syms.isEmpty then none else if e.vec then some e else none

/-- expr.py:94-96: a new `Expr`. -/
def ExprHeld.new (e : SymFn) : ExprHeld := ⟨e, e, efunArrays e none⟩

/-- expr.py:106-124: the setter of `expr`, for an `Expr` that has one; `_efun` is not None (147). -/
def ExprHeld.set (s : ExprHeld) (e : SymFn) : ExprHeld := ⟨e, s.subs, efunArrays e s.arrays⟩

/-- What a call gives: a number, or an expression in which symbols are left. -/
inductive ExprGot where
  | num (x : ℝ)
  | symbolic

/-- The assignment that a dictionary stands for. -/
noncomputable def assigned (vals : Dict Str ℝ) (k : Str) : ℝ := (vals.get? k).getD 0

/-- `expr.subs(values)`: symbols that are not among the values are left. -/
noncomputable def SymFn.substituted (e : SymFn) (vals : Dict Str ℝ) : ExprGot :=
  if e.syms.all fun k => (vals.get? k).isSome then .num (e.fn (assigned vals)) else .symbolic

/-- expr.py:188-196: the values of the symbols in their order; KeyError. -/
def exprOrdered (vals : Dict Str ℝ) : List Str → Py (List ℝ)
  | [] => .ok []
  | k :: ks =>
      match vals.get? k with
      | none => .error .key
      | some x =>
          match exprOrdered vals ks with
          | .ok xs => .ok (x :: xs)
          | .error e => .error e

/-- expr.py:164-223, called with numbers by name. -/
noncomputable def ExprHeld.callNum (s : ExprHeld) (vals : Dict Str ℝ) : Py ExprGot :=
  match exprOrdered vals s.cur.syms with
  | .error e => .error e
  | .ok _ => .ok (s.subs.substituted vals)

/-- expr.py:164-260, called with arrays of one shape by name: one entry of the result, from the entries of the arrays.
Functions of arrays are called by position (212) and refuse another number of arguments; without one, the entries are
substituted (245-256), where `float` refuses symbols.  There is at least one symbol. -/
noncomputable def ExprHeld.callEntry (s : ExprHeld) (vals : Dict Str ℝ) : Py ℝ :=
  match exprOrdered vals s.cur.syms with
  | .error e => .error e
  | .ok xs =>
      match s.arrays with
      | some f =>
          if xs.length = f.syms.length then .ok (f.fn (assigned (f.syms.zip xs))) else .error .type
      | none =>
          match s.subs.substituted vals with
          | .num x => .ok x
          | .symbolic => .error .type

/-- expr.py:272-277: `expr[:]`. -/
def ExprHeld.getitem (s : ExprHeld) (whole : Bool) : Py SymFn :=
  if whole then .ok s.cur else .error .assertion

/-- A new `Expr` whose expression is then set again and again. -/
def ExprHeld.run (e : SymFn) (es : List SymFn) : ExprHeld := es.foldl ExprHeld.set (ExprHeld.new e)

end Probayes
