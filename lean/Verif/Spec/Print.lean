import Verif.Model.Print

/-! # Specification of printed text -/

namespace RB.Spec

/-- What precedes the first row. -/
def openText : ArrayStyle → String
  | .matlab => " = [ ... \n"
  | .python => " = np.array([\n"

/-- What precedes every row. -/
def rowOpen : ArrayStyle → String
  | .matlab => "\t"
  | .python => "\t["

/-- What stands between two rows. -/
def rowSep : ArrayStyle → String
  | .matlab => " ; ...\n"
  | .python => " ],\n"

/-- What follows the last row. -/
def closeText : ArrayStyle → String
  | .matlab => " ; ...\n];\n"
  | .python => " ]\n])\n"

/-- The fields of one row, separated by commas. -/
def rowText (fields : List String) : String := ",".intercalate (fields.map fun f => "  " ++ f)

/-- The text of a matrix whose entries are given as text, row by row. -/
def matrixText (style : ArrayStyle) (label : String) (rows : List (List String)) : String :=
  "\n" ++ label ++ openText style ++ (rowSep style).intercalate (rows.map fun r => rowOpen style ++ rowText r) ++ closeText style ++ "\n"

/-- The fields `f i 0, ..., f i (n - 1)` of row `i`. -/
def rowOf (n : Int) (f : Int → Int → String) (i : Int) : List String := (List.range n.toNat).map fun j : Nat => f i j

/-- The rows of an `m x n` table. -/
def table (m n : Int) (f : Int → Int → String) : List (List String) := (List.range m.toNat).map fun i : Nat => rowOf n f i

/-- A text that follows each element of a list. -/
def listed (l : List String) : String := String.join (l.map fun t => t ++ ", ")

/-- The text of a sparse operator with the given rows, columns and values (`none` stands for a null pointer). -/
def sparseText (short : Bool) (m n : String) (rows cols vals : Option (List String)) : String :=
  "SparseSkOp information\n" ++
  (if short then "\tSASO: short-axis-sparse operator\n" else "\tLASO: long-axis-sparse operator\n") ++
  "\tn_rows = " ++ m ++ "\n" ++ "\tn_cols = " ++ n ++ "\n" ++
  (match rows with | some l => "\tvector of row indices\n\t\t" ++ listed l | none => "\trows is the null pointer.\n\t\t") ++ "\n" ++
  (match cols with | some l => "\tvector of column indices\n\t\t" ++ listed l | none => "\tcols is the null pointer.\n\t\t") ++ "\n" ++
  (match vals with | some l => "\tvector of values\n\t\t" ++ listed l | none => "\tvals is the null pointer.\n\t\t") ++ "\n"

/-- The text of a state. -/
def stateText (counter key : List Nat) : String :=
  "counter : {" ++ ", ".intercalate (counter.map Nat.repr) ++ "}\nkey     : {" ++ ", ".intercalate (key.map Nat.repr) ++ "}"

end RB.Spec
