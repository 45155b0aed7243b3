import Verif.Model.Dump

/-!
Model of `DumpContext` (x7/geom/model.py 36-95) through every history of its calls: elements dumped one after another, imports added,
variables set, lines written by hand, `with context:` blocks, and `output()` called at any time and any number of times.

`Verif.Model.Dump` models the single calls but leaves out the imports. Text is a list of tokens per line, as there.
-/

noncomputable section

namespace X7.DH

open X7.Dump

/-- A context: what `Verif.Model.Dump` models of it, and its imports. -/
structure Ctx where
  dc : DC
  imports : List Str

/-- model.py:37-42 `DEFAULT_IMPORTS`. -/
def defaultImports : List Str :=
  ["from x7.geom.geom import *".toList, "from x7.geom.model import *".toList, "from x7.geom.colors import *".toList,
    "from x7.geom.transform import *".toList]

/-- model.py:44-50 `DumpContext(use_vars)`. -/
def Ctx.new (useVars : Bool) : Ctx := ⟨DC.new useVars, [] ++ defaultImports⟩

/-- model.py:52-55 `add_imports(imports)`. -/
def Ctx.addImports (c : Ctx) (l : List Str) : Ctx :=
  l.foldl (fun c i => if i ∈ c.imports then c else { c with imports := c.imports ++ [i] }) c

/-- A line of the text `output()` gives: an import, an empty line, or code behind an indentation of `4 * depth`. -/
inductive Line
  | imp (s : Str)
  | blank
  | code (depth : ℕ) (toks : List Tok)

/-- model.py:57-66 `output()`: the imports, an empty line, the variables in the order of their names, an empty line, the lines. The first
of the lines is changed for good. -/
def Ctx.output (c : Ctx) : Ctx × Except PyErr (List Line) :=
  match c.dc.output with
  | (dc, .error e) => ({ c with dc := dc }, .error e)
  | (dc, .ok (vars, lines)) =>
    ({ c with dc := dc },
      .ok (c.imports.map Line.imp ++ [.blank] ++ vars.map (fun x => .code 0 (.id x.1 :: .eq :: x.2)) ++ [.blank] ++
        lines.map fun x => .code x.1 x.2))

/-- model.py:58-59 `output(just_lines=True)`: nothing is changed. -/
def Ctx.outputLines (c : Ctx) : List Line := c.dc.lines.map fun x => .code x.1 x.2

/-- model.py:90-92 `extend(lines)`. -/
def Ctx.extend (c : Ctx) (ls : List (List Tok)) : Ctx :=
  { c with dc := { c.dc with lines := c.dc.lines ++ ls.map fun l => (c.dc.depth, l) } }

/-- model.py:94-95 `add_comma()`; without lines it raises. -/
def Ctx.addComma (c : Ctx) : Ctx × Option PyErr :=
  match c.dc.lines with
  | [] => (c, some .index)
  | _ :: _ => ({ c with dc := c.dc.addComma }, none)

/-- The values given to `set_var`. -/
inductive DVal
  | pb (pb : PenBrush)
  | xf (m : Mat3 ℝ)
  | pt (p : DPt)
  | vec (v : DVec)
  | cp (c : DCp)

/-- `repr(value)`. -/
def DVal.repr : DVal → List Tok
  | .pb b => reprPB b
  | .xf m => reprXf m
  | .pt p => reprPt p
  | .vec v => reprVec v
  | .cp c => reprCp c

/-- The calls: `elem.dump(c)`, `c.add_imports(..)`, `c.set_var(..)`, `c.output()`, `c.output(just_lines=True)`, `c.append(..)`,
`c.extend(..)`, `c.add_comma()`, and a block `with c:` around calls. -/
inductive Op
  | dump (e : DElem)
  | addImports (l : List Str)
  | setVar (v : DVal) (pfx : Str)
  | output
  | outputLines
  | append (l : List Tok)
  | extend (ls : List (List Tok))
  | addComma
  | within (body : List Op)

mutual
/-- One call and the exception it raises. `Elem.dump_elem` (model.py:316) adds the `ELEM_IMPORTS` of the class, which are empty for all
classes of the module. `with c:` raises the depth (model.py:71-72) and lowers it on every exit (74-75); an exception goes on. -/
def step (c : Ctx) : Op → Ctx × Option PyErr
  | .dump e => ({ c with dc := Dump.dump c.dc e }.addImports [], none)
  | .addImports l => (c.addImports l, none)
  | .setVar v p => ({ c with dc := (c.dc.setVar v.repr p).1 }, none)
  | .output => match c.output with | (c, .ok _) => (c, none) | (c, .error e) => (c, some e)
  | .outputLines => (c, none)
  | .append l => ({ c with dc := c.dc.append l }, none)
  | .extend ls => (c.extend ls, none)
  | .addComma => c.addComma
  | .within body =>
    let r := block { c with dc := { c.dc with depth := c.dc.depth + 1 } } body
    ({ r.1 with dc := { r.1.dc with depth := r.1.dc.depth - 1 } }, r.2)
/-- Statements up to the first exception. -/
def block (c : Ctx) : List Op → Ctx × Option PyErr
  | [] => (c, none)
  | op :: rest => match step c op with | (c, none) => block c rest | (c, some e) => (c, some e)
end

/-- A program which handles every exception and goes on. -/
def run (c : Ctx) (ops : List Op) : Ctx := ops.foldl (fun c op => (step c op).1) c

end X7.DH
