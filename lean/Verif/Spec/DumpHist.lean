import Verif.Spec.Dump
import Verif.Model.DumpHist

/-!
Running the text of a `DumpContext` as a Python file, on top of the grammar in `Verif.Spec.Dump`.
-/

noncomputable section

namespace X7.DH

open X7.Dump

/-- Brackets opened minus brackets closed. -/
def net (l : List Tok) : ℤ :=
  (l.map fun t => match t with | .lp | .lb | .lc => 1 | .rp | .rb | .rc => -1 | _ => (0 : ℤ)).sum

/-- Python's logical lines: a line with open brackets goes on with the next one. Each has the indentation of its first line. Brackets open at
the end of the file are a `SyntaxError`. -/
def logical : List (ℕ × List Tok) → Option (ℕ × List Tok) → Option (List (ℕ × List Tok))
  | [], none => some []
  | [], some _ => none
  | (d, l) :: r, none => if net l = 0 then (logical r none).map ((d, l) :: ·) else logical r (some (d, l))
  | (_, l) :: r, some (d, l0) =>
    if net (l0 ++ l) = 0 then (logical r none).map ((d, l0 ++ l) :: ·) else logical r (some (d, l0 ++ l))

/-- The names a statement assigns to: `a = b = expression`. -/
def targets : Expr → List Str
  | .kw k e => k :: targets e
  | _ => []

/-- Bind names to a value. -/
def assign (env : Str → Option Dump.Val) (ns : List Str) (v : Dump.Val) : Str → Option Dump.Val := fun s => if s ∈ ns then some v else env s

/-- Run statements in order: the values of all of them and the names bound at the end. An indented statement is an `IndentationError`. -/
def exec (env : Str → Option Dump.Val) : List (ℕ × List Tok) → Option (List Dump.Val × (Str → Option Dump.Val))
  | [] => some ([], env)
  | (d, l) :: r =>
    if d ≠ 0 then none
    else match parseAll l with
      | none => none
      | some e => match eval env e with
        | none => none
        | some v => (exec (assign env (targets e) v) r).map fun x => (v :: x.1, x.2)

/-- The lines that are code. -/
def codeOf (ls : List Line) : List (ℕ × List Tok) :=
  ls.filterMap fun l => match l with | .code d t => some (d, t) | _ => none

/-- What has to be imported for the classes to be known. -/
def Needs (ls : List Line) : Prop :=
  ∀ m ∈ ["geom", "model", "colors", "transform"], Line.imp ("from x7.geom." ++ m ++ " import *").toList ∈ ls

open Classical in
/-- Run a file: the values of its statements and the names bound at the end. -/
def runFile (ls : List Line) : Option (List Dump.Val × (Str → Option Dump.Val)) :=
  if Needs ls then (logical (codeOf ls) none).bind (exec fun _ => none) else none

/-- The elements dumped by a history, in order. -/
def dumped (ops : List Op) : List DElem := ops.filterMap fun op => match op with | .dump e => some e | _ => none

/-- The imports added by a history, in order, as often as given. -/
def added (ops : List Op) : List Str := ops.flatMap fun op => match op with | .addImports l => l | _ => []

/-- Values which `repr` writes completely. -/
def DVal.Ok : DVal → Prop
  | .pb _ => True
  | .xf m => m.Affine
  | .pt p => p.Ok
  | .vec v => v.Ok
  | .cp c => c.Ok

/-- Calls which write no lines by hand, for elements and values that can be written. -/
def Op.Clean : Op → Prop
  | .dump e => e.Ok
  | .addImports _ => True
  | .setVar v _ => v.Ok
  | .output => True
  | .outputLines => True
  | _ => False

mutual
/-- `output()` is not called, not even in a `with` block. -/
def Op.NoOutput : Op → Prop
  | .output => False
  | .within body => NoOutputs body
  | _ => True
/-- None of several calls. -/
def NoOutputs : List Op → Prop
  | [] => True
  | op :: rest => op.NoOutput ∧ NoOutputs rest
end

end X7.DH
