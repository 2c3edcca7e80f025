import Verif.Model.Sketch

/-! # The workflows for updating sketches (rtd/source/tutorial/sketch_updates.rst)

The tutorial describes these as formulas and code snippets; the programs below are the corresponding sequences of calls to `sketch_general`.
A pointer to a block of B is a pointer to B plus the address of the block's first entry. -/

namespace RB

variable {N : Nat} {K W WS R T : Type}

/-- The offset of row `r` of a matrix: `&B[r]` or `&B[r * ld]` (rtd/source/tutorial/sketch_updates.rst:44-52, the blocks of B). -/
def rowOff (layout : Layout) (ld r : Int) : Int := match layout with | .ColMajor => r | .RowMajor => r * ld

/-- The offset of column `c` of a matrix (rtd/source/tutorial/sketch_updates.rst:87-95). -/
def colOff (layout : Layout) (ld c : Int) : Int := match layout with | .ColMajor => c * ld | .RowMajor => c

/-- Increasing the size of a left sketch with a second operator (rtd/source/tutorial/sketch_updates.rst:44-79): `op(S1) * op(A)` is written to the
first `d1` rows of B, `op(S2) * op(A)` to the next `d2` rows. -/
def growL [Field R] [LinearOrder R] [FloorRing R] [Zero T] [One T] [Neg T] [Add T] [Mul T] [BEq T] (E : SkEnv N K W WS R T)
    (layout : Layout) (opS opA : Op) (d1 d2 n m : Int) (alpha : T) (A : Buf T) (lda : Int) (beta : T) (ldb : Int) :
    M ((SkOp N K T × SkOp N K T) × Buf T) Unit := do
  M.zoom (fun s => (s.1.1, s.2)) (fun s r => ((r.1, s.1.2), r.2)) (sketchGeneralLFull E layout opS opA d1 n m alpha A lda beta ldb)
  M.zoom (fun s => (s.1.2, s.2.shift (rowOff layout ldb d1))) (fun s r => ((s.1.1, r.1), r.2.shift (-rowOff layout ldb d1)))
    (sketchGeneralLFull E layout opS opA d2 n m alpha A lda beta ldb)

/-- The same with one larger operator, of which the two calls use submatrices (rtd/source/tutorial/sketch_updates.rst:81-85). -/
def growLSub [Field R] [LinearOrder R] [FloorRing R] [Zero T] [One T] [Neg T] [Add T] [Mul T] [BEq T] (E : SkEnv N K W WS R T)
    (layout : Layout) (opS opA : Op) (d1 d2 n m : Int) (alpha : T) (A : Buf T) (lda : Int) (beta : T) (ldb : Int) :
    M (SkOp N K T × Buf T) Unit := do
  sketchGeneralL E layout opS opA d1 n m alpha 0 0 A lda beta ldb
  M.zoom (fun s => (s.1, s.2.shift (rowOff layout ldb d1))) (fun _ r => (r.1, r.2.shift (-rowOff layout ldb d1)))
    (sketchGeneralL E layout opS opA d2 n m alpha (if opS = .NoTrans then d1 else 0) (if opS = .NoTrans then 0 else d1) A lda beta ldb)

/-- Increasing the size of a right sketch with a second operator (rtd/source/tutorial/sketch_updates.rst:87-113). -/
def growR [Field R] [LinearOrder R] [FloorRing R] [Zero T] [One T] [Neg T] [Add T] [Mul T] [BEq T] (E : SkEnv N K W WS R T)
    (layout : Layout) (opA opS : Op) (m d1 d2 n : Int) (alpha : T) (A : Buf T) (lda : Int) (beta : T) (ldb : Int) :
    M ((SkOp N K T × SkOp N K T) × Buf T) Unit := do
  M.zoom (fun s => (s.1.1, s.2)) (fun s r => ((r.1, s.1.2), r.2)) (sketchGeneralRFull E layout opA opS m d1 n alpha A lda beta ldb)
  M.zoom (fun s => (s.1.2, s.2.shift (colOff layout ldb d1))) (fun s r => ((s.1.1, r.1), r.2.shift (-colOff layout ldb d1)))
    (sketchGeneralRFull E layout opA opS m d2 n alpha A lda beta ldb)

/-- The same with submatrices of one larger operator (rtd/source/tutorial/sketch_updates.rst:114-116). -/
def growRSub [Field R] [LinearOrder R] [FloorRing R] [Zero T] [One T] [Neg T] [Add T] [Mul T] [BEq T] (E : SkEnv N K W WS R T)
    (layout : Layout) (opA opS : Op) (m d1 d2 n : Int) (alpha : T) (A : Buf T) (lda : Int) (beta : T) (ldb : Int) :
    M (SkOp N K T × Buf T) Unit := do
  sketchGeneralR E layout opA opS m d1 n alpha A lda 0 0 beta ldb
  M.zoom (fun s => (s.1, s.2.shift (colOff layout ldb d1))) (fun _ r => (r.1, r.2.shift (-colOff layout ldb d1)))
    (sketchGeneralR E layout opA opS m d2 n alpha A lda (if opS = .NoTrans then 0 else d1) (if opS = .NoTrans then d1 else 0) beta ldb)

/-- Adding data to a left sketch (rtd/source/tutorial/sketch_updates.rst:148-213): first `B = alpha * op(S1) * op(A1) + beta * B` with the first
operator; later `B += alpha * op(S2) * op(A2)`, where `S2` consists of the trailing `k` columns of the larger operator. -/
def addL [Field R] [LinearOrder R] [FloorRing R] [Zero T] [One T] [Neg T] [Add T] [Mul T] [BEq T] (E : SkEnv N K W WS R T)
    (layout : Layout) (opS op1 op2 : Op) (d n m k : Int) (alpha : T) (A1 : Buf T) (ld1 : Int) (A2 : Buf T) (ld2 : Int) (beta : T) (ldb : Int) :
    M ((SkOp N K T × SkOp N K T) × Buf T) Unit := do
  M.zoom (fun s => (s.1.1, s.2)) (fun s r => ((r.1, s.1.2), r.2)) (sketchGeneralLFull E layout opS op1 d n m alpha A1 ld1 beta ldb)
  M.zoom (fun s => (s.1.2, s.2)) (fun s r => ((s.1.1, r.1), r.2))
    (sketchGeneralL E layout opS op2 d n k alpha (if opS = .NoTrans then 0 else m) (if opS = .NoTrans then m else 0) A2 ld2 1 ldb)

/-- Adding data to a right sketch (rtd/source/tutorial/sketch_updates.rst:216-278). -/
def addR [Field R] [LinearOrder R] [FloorRing R] [Zero T] [One T] [Neg T] [Add T] [Mul T] [BEq T] (E : SkEnv N K W WS R T)
    (layout : Layout) (op1 op2 opS : Op) (m d n k : Int) (alpha : T) (A1 : Buf T) (ld1 : Int) (A2 : Buf T) (ld2 : Int) (beta : T) (ldb : Int) :
    M ((SkOp N K T × SkOp N K T) × Buf T) Unit := do
  M.zoom (fun s => (s.1.1, s.2)) (fun s r => ((r.1, s.1.2), r.2)) (sketchGeneralRFull E layout op1 opS m d n alpha A1 ld1 beta ldb)
  M.zoom (fun s => (s.1.2, s.2)) (fun s r => ((s.1.1, r.1), r.2))
    (sketchGeneralR E layout op2 opS m d k alpha A2 ld2 (if opS = .NoTrans then n else 0) (if opS = .NoTrans then 0 else n) 1 ldb)

end RB
