import Verif.Core.Loop
import Verif.Model.SparseSkops
import Verif.Model.RngWords

/-! # Writing matrices, operators and states to streams

Models the printing functions of util.hh, sparse_skops.hh and base.hh. -/

namespace RB

/-- An output stream: the text written so far and its precision. Simplification: the other format flags are fixed (they are part of the
number formatting), and writing does not fail. Used to model RandBLAS/util.hh:206-219. -/
structure OStream where
  text : String
  prec : Int

namespace OStream

/-- `stream << text`. Used to model RandBLAS/util.hh:206-219. -/
def put (t : String) : M OStream Unit := M.modify fun s => { s with text := s.text ++ t }

/-- `stream << std::setprecision(p)`. Used to model RandBLAS/util.hh:186-224. -/
def setPrecision (p : Int) : M OStream Unit := M.modify fun s => { s with prec := p }

/-- `stream << std::endl`. Simplification: flushing is not modelled. Used to model RandBLAS/util.hh:186-224. -/
def endl : M OStream Unit := put "\n"

/-- `stream << v` for a number: how a number is written depends on the stream's precision. Used to model RandBLAS/util.hh:206-219. -/
def num {T : Type} (fmt : Int → T → String) (v : T) : M OStream Unit := do
  let s ← M.get
  put (fmt s.prec v)

end OStream

open OStream

/-- `ArrayStyle` (RandBLAS/util.hh:159-162). -/
inductive ArrayStyle where
  | matlab
  | python
  deriving DecidableEq, Repr

/-- The strings `abs_start`, `mid_start`, `mid_end`, `abs_end` (RandBLAS/util.hh:190-199). -/
def styleStrings : ArrayStyle → String × String × String × String
  | .matlab => (" = [ ... \n", "\t", " ; ...\n", " ; ...\n];\n")
  | .python => (" = np.array([\n", "\t[", " ],\n", " ]\n])\n")

/-- The body of the loop over the rows (RandBLAS/util.hh:206-219). After the inner loop, `j` is `max(0, n_cols - 1)`. -/
def printRow {T : Type} (fmt : Int → T → String) (nRows nCols : Int) (A : Buf T) (irs ics : Int) (midStart midEnd absEnd : String) (i : Int) :
    M OStream Unit := do
  put midStart
  forI 0 (nCols - 1) fun j => do
    let v ← M.lift (A.rd (i * irs + j * ics))
    put "  "
    num fmt v
    put ","
  let v ← M.lift (A.rd (i * irs + max 0 (nCols - 1) * ics))
  put "  "
  num fmt v
  if i < nRows - 1 then put midEnd else put absEnd

/-- `print_buff_to_stream` with strides (RandBLAS/util.hh:186-224). Simplification: the label is given by its text. -/
def printBuffStrided {T : Type} (fmt : Int → T → String) (nRows nCols : Int) (A : Buf T) (irs ics : Int) (label : String) (decimals : Int)
    (style : ArrayStyle) : M OStream Unit := do
  endl
  put label
  put (styleStrings style).1
  setPrecision decimals
  forI 0 nRows fun i => printRow fmt nRows nCols A irs ics (styleStrings style).2.1 (styleStrings style).2.2.1 (styleStrings style).2.2.2 i
  endl

/-- `print_buff_to_stream` with a layout (RandBLAS/util.hh:235-249). -/
def printBuff {T : Type} (fmt : Int → T → String) (layout : Layout) (nRows nCols : Int) (A : Buf T) (lda : Int) (label : String) (decimals : Int)
    (style : ArrayStyle) : M OStream Unit :=
  match layout with
  | .ColMajor => do
    M.require (lda ≥ nRows)
    printBuffStrided fmt nRows nCols A 1 lda label decimals style
  | .RowMajor => do
    M.require (lda ≥ nCols)
    printBuffStrided fmt nRows nCols A lda 1 label decimals style

/-- One of the three blocks of `print_sparse` (RandBLAS/sparse_skops.hh:603-611): the elements of an array, or a remark that it is null. -/
def printArray {T : Type} (fmt : Int → T → String) (title null : String) (nnz : Int) (a : Option (Buf T)) : M OStream Unit := do
  (match a with
    | some b => do
      put title
      forI 0 nnz fun i => do
        let v ← M.lift (b.rd i)
        num fmt v
        put ", "
    | none => put null : M OStream Unit)
  endl

/-- `print_sparse` (RandBLAS/sparse_skops.hh:588-630), writing to `std::cout`. -/
def printSparse {N : Nat} {K T : Type} (fmtI : Int → Int → String) (fmt : Int → T → String) (S : SparseSkOp N K T) : M OStream Unit := do
  put "SparseSkOp information"
  endl
  put (if S.dist.majorAxis = .Short then "\tSASO: short-axis-sparse operator" else "\tLASO: long-axis-sparse operator")
  endl
  put "\tn_rows = "
  num fmtI S.dist.nRows
  endl
  put "\tn_cols = "
  num fmtI S.dist.nCols
  endl
  let nnz := S.dist.vecNnz * (if S.dist.majorAxis = .Short then max S.dist.nRows S.dist.nCols else min S.dist.nRows S.dist.nCols)
  printArray fmtI "\tvector of row indices\n\t\t" "\trows is the null pointer.\n\t\t" nnz S.rows
  printArray fmtI "\tvector of column indices\n\t\t" "\tcols is the null pointer.\n\t\t" nnz S.cols
  printArray fmt "\tvector of values\n\t\t" "\tvals is the null pointer.\n\t\t" nnz S.vals

/-- A word of a counter or key in decimal. Used to model RandBLAS/base.hh:172-176. -/
def wordText {w : Nat} (x : BitVec w) : String := Nat.repr x.toNat

/-- The loop and the final element (RandBLAS/base.hh:172-176, 177-181): after the loop `i` is `max(0, len - 1)`; undefined behaviour if
there is no such element. -/
def putWords {w len : Nat} (v : List.Vector (BitVec w) len) (close : String) : M OStream Unit := do
  forN (len - 1) fun i => do
    let x ← M.lift (match v.toList[i]? with | some x => Res.ok x | none => .ub)
    put (wordText x)
    put ", "
  let x ← M.lift (match v.toList[len - 1]? with | some x => Res.ok x | none => .ub)
  put (wordText x)
  put close

/-- `operator<<` for states (RandBLAS/base.hh:167-184). -/
def putState {wc lenC wk lenK : Nat} (s : RNGWords wc lenC wk lenK) : M OStream Unit := do
  put "counter : {"
  putWords s.counter "}\n"
  put "key     : {"
  putWords s.key "}"

end RB
