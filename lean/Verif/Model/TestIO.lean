import Verif.Model.Print

/-!
# Model of the tests of printing (test/test_io.cc)

The number pi is an argument, and so is the format of numbers. The text written is the outcome: the tests compare it with nothing.
-/

namespace RB
variable {T : Type}

/-- `get_pi_mat` (test/test_io.cc:22-25). The size is assumed not to be negative. -/
def getPiMat (pi : T) (nRows nCols : Int) : Buf T := Buf.fill (nRows * nCols) pi

/-- `test_matlab_tiny` and `test_python_tiny` (test/test_io.cc:36-41, 52-57), which differ in the style and in the first three letters of the labels. -/
def testIoTiny (fmt : Int → T → String) (pi : T) (style : ArrayStyle) (pre : String) : M OStream Unit := do
  let vec := getPiMat pi 2 1
  printBuff fmt .ColMajor 1 1 vec 1 (pre ++ "1x1") 9 style
  printBuff fmt .ColMajor 2 1 vec 2 (pre ++ "2x1") 9 style
  printBuff fmt .ColMajor 1 2 vec 1 (pre ++ "1x2") 9 style

/-- `test_matlab_medium` and `test_python_medium` (test/test_io.cc:43-49, 60-66), which differ in the style. Generalised: the sizes are arguments (7 and 3 in the tests). -/
def testIoMedium [Neg T] (fmt : Int → T → String) (pi : T) (style : ArrayStyle) (m n : Int) : M OStream Unit := do
  let (_, vec) ← M.onLocal (do
    let x ← M.rd 1
    M.wr 1 (-x)) (getPiMat pi m n)
  printBuff fmt .ColMajor m n vec m "Neg in first column\nmat7x3_a" 3 style
  printBuff fmt .RowMajor m n vec n "Neg in first row\nmat7x3_b" 3 style
  printBuff fmt .RowMajor n m vec m "Neg in first row\ntrans_mat7x3_a" 3 style

end RB
