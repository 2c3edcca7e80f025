import Verif.Core.Res

/-!
# Memory management: allocations, objects and histories

A second view of the library's objects, in which only pointers, ownership flags and the heap are kept and all data is abstracted away (the data is
in the other model files). Objects live in numbered variables; commands are the library's functions and what a user does between the calls.

What numerical code decides is a parameter of the command: exceptions (`Option Err`: `none` = no exception at this point, `some e` = exception `e`)
and the number of sampled or counted nonzeros. `std::vector`s are not modelled.
-/

namespace RB.Mem

/-- An array on the heap: allocated by the library or by the user, and how often it has been freed. Used to model RandBLAS/sparse_skops.hh:387-405. -/
structure Block where
  lib : Bool
  frees : Nat
  deriving DecidableEq, Repr

/-- The heap: all arrays ever allocated, in order; an address is a position in this list. Used to model RandBLAS/sparse_skops.hh:387-405. -/
abbrev Heap := List Block

/-- A pointer to the start of an array; `none` is the null pointer. Used to model RandBLAS/dense_skops.hh:380-398. -/
abbrev Ptr := Option Nat

/-- `new T[n]` in library code. Used to model RandBLAS/dense_skops.hh:538-581. -/
def newArray : M Heap Ptr := fun h => (.ok (some h.length), h ++ [⟨true, 0⟩])

/-- `delete [] p`: undefined if the array has been freed before; no effect for null. Used to model RandBLAS/dense_skops.hh:449-454. -/
def deleteArray : Ptr → M Heap Unit
  | none => pure ()
  | some a => fun h => match h[a]? with
    | some b => (if b.frees = 0 then .ok () else .ub, h.set a { b with frees := b.frees + 1 })
    | none => (.ub, h)

/-- Read or write an element of the array at `p`: undefined if `p` is null or the array has been freed. Used to model RandBLAS/sparse_skops.hh:387-405. -/
def touch : Ptr → M Heap Unit
  | none => M.ub
  | some a => fun h => match h[a]? with
    | some b => (if b.frees = 0 then .ok () else .ub, h)
    | none => (.ub, h)

/-- The classes that manage memory. Used to model RandBLAS/dense_skops.hh:380-398. -/
inductive Kind where | dense | sparse | coo | csc | csr
  deriving DecidableEq, Repr

/-- The members of an object that concern memory. The three pointers are
 * `buff` (and two unused) for `DenseSkOp` (RandBLAS/dense_skops.hh:380-398) and `BLASFriendlyOperator` (635-650);
 * `vals`, `rows`, `cols` for `SparseSkOp` (RandBLAS/sparse_skops.hh:316-360) and `COOMatrix` (RandBLAS/sparse_data/coo_matrix.hh:149-190);
 * `vals`, `rowidxs`, `colptr` for `CSCMatrix` (RandBLAS/sparse_data/csc_matrix.hh:79-117);
 * `vals`, `colidxs`, `rowptr` for `CSRMatrix` (RandBLAS/sparse_data/csr_matrix.hh:83-121).
For dense operators `nnz` is unused and always 0. -/
structure Obj where
  kind : Kind
  own : Bool
  nnz : Int
  vals : Ptr
  p1 : Ptr
  p2 : Ptr
  deriving DecidableEq, Repr

/-- Run on the heap only. Used to model RandBLAS/dense_skops.hh:624-633. -/
def onHeap {α : Type} (m : M Heap α) : M (Obj × Heap) α := M.zoom (fun s => s.2) (fun s h => (s.1, h)) m

/-- Raise the exception, if there is one. Used to model RandBLAS/dense_skops.hh:538-581. -/
def raise {σ : Type} : Option Err → M σ Unit
  | none => pure ()
  | some e => M.throw e

/-- Constructors for new objects: null pointers, `own_memory = true`; `nnz` is -1 for `SparseSkOp`, otherwise 0
(RandBLAS/dense_skops.hh:412-425, RandBLAS/sparse_skops.hh:371-380, RandBLAS/sparse_data/coo_matrix.hh:206-210, RandBLAS/sparse_data/csc_matrix.hh:128-132, RandBLAS/sparse_data/csr_matrix.hh:131-135). -/
def mkNew (k : Kind) : Obj := ⟨k, true, if k = .sparse then -1 else 0, none, none, none⟩

/-- Expert constructors: the given pointers, `own_memory = false`. If `sortType`, `COOMatrix` reads the index arrays
(RandBLAS/sparse_skops.hh:387-405, RandBLAS/sparse_data/coo_matrix.hh:82-108, 218-234, RandBLAS/sparse_data/csc_matrix.hh:138-148, RandBLAS/sparse_data/csr_matrix.hh:141-152). -/
def mkView (k : Kind) (sortType : Bool) (nnz : Int) (vals p1 p2 : Ptr) : M Heap Obj := do
  M.when (k = .coo ∧ sortType = true ∧ 1 < nnz) (do
    touch p1
    touch p2)
  pure ⟨k, false, nnz, vals, p1, p2⟩

/-- Destructors (RandBLAS/dense_skops.hh:449-454, 645-649, RandBLAS/sparse_skops.hh:419-426, RandBLAS/sparse_data/coo_matrix.hh:235-241, RandBLAS/sparse_data/csc_matrix.hh:150-156,
RandBLAS/sparse_data/csr_matrix.hh:154-160). -/
def destructor (o : Obj) : M Heap Unit :=
  M.when (o.own = true) (do
    deleteArray o.vals
    deleteArray o.p1
    deleteArray o.p2)

/-- Move constructors: returns the new object, and leaves the old one without arrays (RandBLAS/dense_skops.hh:430-446, RandBLAS/sparse_skops.hh:407-417,
RandBLAS/sparse_data/coo_matrix.hh:249-258, RandBLAS/sparse_data/csc_matrix.hh:158-165, RandBLAS/sparse_data/csr_matrix.hh:163-170). -/
def moveFrom : M (Obj × Heap) Obj := do
  let s ← M.get
  M.set ({ s.1 with nnz := if s.1.kind = .sparse then -1 else 0, vals := none, p1 := none, p2 := none }, s.2)
  pure s.1

/-- A local object: `body` runs with it, and it is destroyed at the end, also if an exception is raised. Used to model RandBLAS/skge.hh:152-200. -/
def withLocal {α : Type} (o : Obj) (body : M (Obj × Heap) α) : M Heap α := fun h =>
  match body (o, h) with
  | (.ub, s) => (.ub, s.2)
  | (r, s) => match destructor s.1 s.2 with
    | (.ok _, h') => (r, h')
    | (.throw _, h') => (.throw .terminate, h')
    | (.ub, h') => (.ub, h')

/-- Set a pointer to a new array. Used to model RandBLAS/dense_skops.hh:624-633. -/
def attach (put : Obj → Ptr → Obj) : M (Obj × Heap) Unit := do
  let p ← onHeap newArray
  M.modify fun s => (put s.1 p, s.2)

/-- Access to the arrays of the `nnz` nonzeros. Used to model RandBLAS/sparse_data/spmm_dispatch.hh:48-160. -/
def touchEntries : M (Obj × Heap) Unit := do
  let s ← M.get
  M.when (0 < s.1.nnz) (onHeap (do
    touch s.1.vals
    touch s.1.p1))

/-! ## Sketching operators -/

/-- `fill_dense_unpacked` (RandBLAS/dense_skops.hh:538-581): `num` for the checks and the products of integers; `flip`: another layout than the
natural one is requested, and a temporary array is used. -/
def fillDenseUnpacked (num : Option Err) (flip : Bool) (buff : Ptr) : M Heap Unit := do
  raise num
  touch buff
  M.when (flip = true) (do
    let w ← newArray
    touch w
    touch buff
    deleteArray w)

/-- `fill_dense(S)` (RandBLAS/dense_skops.hh:624-633). -/
def fillDense (num : Option Err) : M (Obj × Heap) Unit := do
  let s ← M.get
  M.when (s.1.own = true ∧ s.1.vals = none) (attach fun o p => { o with vals := p })
  let s ← M.get
  M.require (s.1.vals ≠ none)
  onHeap (fillDenseUnpacked num false s.1.vals)

/-- `submatrix_as_blackbox` (RandBLAS/dense_skops.hh:652-664): `pre` for the two checks, `num` for `fill_dense_unpacked`. The local object
`submatrix` is returned by value. If the copy is elided (`elide`; compilers may, but need not do it) the returned object is this object; otherwise
it is a copy with the same pointer, made by the implicit copy constructor, and the local object is destroyed. -/
def submatrixAsBlackbox (pre num : Option Err) (elide : Bool) : M Heap Obj := do
  raise pre
  let p ← newArray
  fillDenseUnpacked num false p
  let sub : Obj := ⟨.dense, true, 0, p, none, none⟩
  M.when (elide = false) (destructor sub)
  pure sub

/-- `lskge3`, `rskge3`, `lsksp3` and `rsksp3` (RandBLAS/skge.hh:152-200, 305-353, RandBLAS/sparse_data/sksp.hh:132-182, 277-326): `mid` for their own checks.
The data matrix is not part of this model. -/
def sketchDense (pre num mid : Option Err) (elide : Bool) : M (Obj × Heap) Unit := do
  let s ← M.get
  if s.1.vals = none then do
    let sub ← onHeap (submatrixAsBlackbox pre num elide)
    onHeap (withLocal sub (do
      raise mid
      onHeap (touch sub.vals)))
  else do
    raise mid
    onHeap (touch s.1.vals)

/-- `fill_sparse(S)` (RandBLAS/sparse_skops.hh:564-580): `k` nonzeros are sampled. -/
def fillSparse (num : Option Err) (k : Nat) : M (Obj × Heap) Unit := do
  let s ← M.get
  M.when (s.1.own = true ∧ s.1.p1 = none) (attach fun o p => { o with p1 := p })
  M.when (s.1.own = true ∧ s.1.p2 = none) (attach fun o p => { o with p2 := p })
  M.when (s.1.own = true ∧ s.1.vals = none) (attach fun o p => { o with vals := p })
  let s ← M.get
  M.require (s.1.p1 ≠ none)
  M.require (s.1.p2 ≠ none)
  M.require (s.1.vals ≠ none)
  raise num
  onHeap (touch s.1.vals)
  onHeap (touch s.1.p1)
  onHeap (touch s.1.p2)
  M.modify fun s => ({ s.1 with nnz := k }, s.2)

/-- `coo_view_of_skop` (RandBLAS/sparse_skops.hh:640-645). -/
def cooViewOfSkop (num : Option Err) (k : Nat) : M (Obj × Heap) Obj := do
  let s ← M.get
  M.when (s.1.nnz ≤ 0) (fillSparse num k)
  let s ← M.get
  onHeap (mkView .coo true s.1.nnz s.1.vals s.1.p1 s.1.p2)

/-- The product with a COO matrix (RandBLAS/sparse_data/spmm_dispatch.hh:48-160, RandBLAS/sparse_data/coo_spmm_impl.hh:80-163): `mid` for the checks. -/
def spmmCoo (mid : Option Err) : M (Obj × Heap) Unit := do
  raise mid
  touchEntries
  let s ← M.get
  M.when (0 < s.1.nnz) (onHeap (touch s.1.p2))

/-- `lskges` and `rskges` from the view on (RandBLAS/skge.hh:486-488, 619-622). -/
def sketchSparseView (num mid : Option Err) (k : Nat) : M (Obj × Heap) Unit := do
  let v ← cooViewOfSkop num k
  onHeap (withLocal v (spmmCoo mid))

/-- `SparseSkOp shallowcopy(S.dist, S.seed_state); fill_sparse(shallowcopy);` and the recursive call (RandBLAS/skge.hh:481-485, 614-618). -/
def sketchCopy (num mid : Option Err) (k : Nat) : M (Obj × Heap) Unit :=
  onHeap (withLocal (mkNew .sparse) (do
    fillSparse num k
    sketchSparseView num mid k))

/-- `lskges` (RandBLAS/skge.hh:463-490). -/
def lskges (num mid : Option Err) (k : Nat) : M (Obj × Heap) Unit := do
  let s ← M.get
  if s.1.nnz < 0 then sketchCopy num mid k else sketchSparseView num mid k

/-- `rskges` (RandBLAS/skge.hh:596-624), without `return` after the recursive call. -/
def rskges (num mid : Option Err) (k : Nat) : M (Obj × Heap) Unit := do
  let s ← M.get
  M.when (s.1.nnz < 0) (sketchCopy num mid k)
  sketchSparseView num mid k

/-! ## Sparse matrices -/

/-- `reserve_coo` (RandBLAS/sparse_data/coo_matrix.hh:277-290). -/
def reserveCoo (nnz : Int) : M (Obj × Heap) Unit := do
  let s ← M.get
  M.require (s.1.own = true)
  M.require (s.1.vals = none)
  M.require (s.1.p1 = none)
  M.require (s.1.p2 = none)
  M.modify fun s => ({ s.1 with nnz := nnz }, s.2)
  M.when (0 < nnz) (do
    attach fun o p => { o with vals := p }
    attach fun o p => { o with p1 := p }
    attach fun o p => { o with p2 := p })

/-- `reserve_csc` and `reserve_csr` (RandBLAS/sparse_data/csc_matrix.hh:193-207, RandBLAS/sparse_data/csr_matrix.hh:200-213). -/
def reserveCs (nnz : Int) : M (Obj × Heap) Unit := do
  let s ← M.get
  M.require (s.1.own = true)
  M.require (s.1.p1 = none)
  M.require (s.1.vals = none)
  M.when (s.1.p2 = none) (attach fun o p => { o with p2 := p })
  M.modify fun s => ({ s.1 with nnz := nnz }, s.2)
  M.when (0 < nnz) (do
    attach fun o p => { o with p1 := p }
    attach fun o p => { o with vals := p })

/-- Reading or writing all arrays of a matrix: `*_to_dense`, `reindex_*`, `sort_coo_data`, and filling a matrix after `reserve_*`. The pointer array
of CSC and CSR matrices is accessed in any case. Used to model RandBLAS/sparse_data/spmm_dispatch.hh:48-200. -/
def touchMatrix (mid : Option Err) : M (Obj × Heap) Unit := do
  raise mid
  touchEntries
  let s ← M.get
  M.when (s.1.kind ≠ .coo ∨ 0 < s.1.nnz) (onHeap (touch s.1.p2))

/-- `left_spmm` and `right_spmm` with a CSC or CSR matrix (RandBLAS/sparse_data/spmm_dispatch.hh:48-200): if `scale` (`alpha` is not 1) the column kernels use a
scaled copy of `vals` (RandBLAS/sparse_data/csc_spmm_impl.hh:106-110, 151-153, RandBLAS/sparse_data/csr_spmm_impl.hh:86-90, 118-120), and if `blocks` the row kernel for CSC has an array of block
bounds (RandBLAS/sparse_data/csc_spmm_impl.hh:183, 213). -/
def spmmCs (mid : Option Err) (scale blocks : Bool) : M (Obj × Heap) Unit := do
  raise mid
  touchMatrix none
  M.when (scale = true) (onHeap (do
    let w ← newArray
    touch w
    deleteArray w))
  M.when (blocks = true) (onHeap (do
    let w ← newArray
    touch w
    deleteArray w))

/-- The product with a sparse matrix of any kind; if `tr`, with a view that has the transposed dimensions (RandBLAS/sparse_data/spmm_dispatch.hh:67-85). -/
def spmm (mid : Option Err) (tr scale blocks : Bool) : M (Obj × Heap) Unit := do
  let s ← M.get
  let body := if s.1.kind = .coo then spmmCoo mid else spmmCs mid scale blocks
  if tr then onHeap (do
    let v ← mkView s.1.kind false s.1.nnz s.1.vals s.1.p1 s.1.p2
    withLocal v body)
  else body

/-! ## Histories -/

/-- The state of a program that uses the library: the heap and the variables (`none`: the object has been destroyed). Used to model RandBLAS/sparse_data/conversions.hh:42-62. -/
structure St where
  heap : Heap
  objs : List (Option Obj)

/-- Run on the object in variable `i`. Used to model RandBLAS/sparse_data/conversions.hh:42-62. -/
def onObj {α : Type} (i : Nat) (m : M (Obj × Heap) α) : M St α := fun s =>
  match s.objs[i]? with
  | some (some o) =>
    let r := m (o, s.heap)
    (r.1, ⟨r.2.2, s.objs.set i (some r.2.1)⟩)
  | _ => (.ub, s)

/-- A new variable. Used to model RandBLAS/sparse_data/coo_matrix.hh:363-372. -/
def addObj (o : Obj) : M St Unit := M.modify fun s => ⟨s.heap, s.objs ++ [some o]⟩

/-- Run on the heap only. Used to model RandBLAS/sparse_data/coo_matrix.hh:363-372. -/
def onStHeap {α : Type} (m : M Heap α) : M St α := M.zoom St.heap (fun s h => ⟨h, s.objs⟩) m

/-- `coo_to_csc`, `coo_to_csr` (RandBLAS/sparse_data/conversions.hh:42-62, 84-103), from variable `i` to variable `j`. -/
def cooToCs (mid : Option Err) (i j : Nat) : M St Unit := do
  raise mid
  onObj i (touchMatrix none)
  let A ← onObj i M.get
  onObj j (reserveCs A.1.nnz)
  onObj i (touchMatrix none)
  onObj j (touchMatrix none)

/-- `csc_to_coo`, `csr_to_coo` (RandBLAS/sparse_data/conversions.hh:64-82, 105-123). -/
def csToCoo (mid : Option Err) (i j : Nat) : M St Unit := do
  raise mid
  let A ← onObj i M.get
  onObj j (reserveCoo A.1.nnz)
  onObj i (touchMatrix none)
  onObj j (touchMatrix none)

/-- `transpose` of a COO matrix (RandBLAS/sparse_data/coo_matrix.hh:363-372). -/
def transposeCoo (i : Nat) : M St Unit := do
  let A ← onObj i M.get
  let v ← onStHeap (mkView .coo false A.1.nnz A.1.vals A.1.p2 A.1.p1)
  addObj v

/-- `transpose_as_csr`, `transpose_as_csc` (RandBLAS/sparse_data/conversions.hh:125-161). With `share = false` the local object `At` gets arrays of its own and is
returned (moved, or constructed in place). -/
def transposeCs (share : Bool) (i : Nat) : M St Unit := do
  let A ← onObj i M.get
  let k := if A.1.kind = .csc then Kind.csr else .csc
  if share then do
    let v ← onStHeap (mkView k false A.1.nnz A.1.vals A.1.p1 A.1.p2)
    addObj v
  else do
    addObj (mkNew k)
    let s ← M.get
    onObj (s.objs.length - 1) (reserveCs A.1.nnz)
    onObj i (touchMatrix none)
    onObj (s.objs.length - 1) (touchMatrix none)

/-- What a program can do. No lines of its own: a user of the classes of RandBLAS/dense_skops.hh:335-455 and of the others modelled here. -/
inductive Cmd where
  /-- A new object. -/
  | new (k : Kind)
  /-- A new object with arrays of the user (or of other objects). -/
  | view (k : Kind) (sortType : Bool) (nnz : Int) (vals p1 p2 : Ptr)
  /-- A new object is constructed by moving from variable `i`. -/
  | move (i : Nat)
  /-- The object goes out of scope. -/
  | destroy (i : Nat)
  | fillDense (i : Nat) (num : Option Err)
  | fillDenseUnpacked (p : Ptr) (num : Option Err) (flip : Bool)
  | sketchDense (i : Nat) (pre num mid : Option Err) (elide : Bool)
  | fillSparse (i : Nat) (num : Option Err) (k : Nat)
  | cooViewOfSkop (i : Nat) (num : Option Err) (k : Nat)
  | lskges (i : Nat) (num mid : Option Err) (k : Nat)
  | rskges (i : Nat) (num mid : Option Err) (k : Nat)
  | reserve (i : Nat) (nnz : Int)
  /-- Functions that access the arrays of a matrix but do not change any member. -/
  | access (i : Nat) (mid : Option Err)
  /-- `dense_to_coo`, `dense_to_csc`, `dense_to_csr`. -/
  | fromDense (i : Nat) (nnz : Nat)
  | spmm (i : Nat) (mid : Option Err) (tr scale blocks : Bool)
  | cooToCs (mid : Option Err) (i j : Nat)
  | csToCoo (mid : Option Err) (i j : Nat)
  | transposeCoo (i : Nat)
  | transposeCs (share : Bool) (i : Nat)
  /-- The user allocates an array. -/
  | userNew
  /-- The user frees an array. -/
  | userDelete (a : Nat)
  /-- The user gives an own array to a dense operator: `S.own_memory = false; S.buff = p;` (RandBLAS/dense_skops.hh:371-394). -/
  | attachDense (i : Nat) (p : Ptr)

/-- `reserve_*` for each kind of matrix. Used to model RandBLAS/sparse_data/csc_matrix.hh:193-207. -/
def reserve (nnz : Int) : M (Obj × Heap) Unit := do
  let s ← M.get
  if s.1.kind = .coo then reserveCoo nnz else reserveCs nnz

/-- The effect of a command. No lines of its own: a user of the classes of RandBLAS/dense_skops.hh:335-455 and of the others modelled here. -/
def exec : Cmd → M St Unit
  | .new k => addObj (mkNew k)
  | .view k st nnz v p q => do
    let o ← onStHeap (mkView k st nnz v p q)
    addObj o
  | .move i => do
    let o ← onObj i moveFrom
    addObj o
  | .destroy i => do
    let o ← onObj i M.get
    M.modify fun s => ⟨s.heap, s.objs.set i none⟩
    onStHeap (destructor o.1)
  | .fillDense i num => onObj i (fillDense num)
  | .fillDenseUnpacked p num flip => onStHeap (fillDenseUnpacked num flip p)
  | .sketchDense i pre num mid elide => onObj i (sketchDense pre num mid elide)
  | .fillSparse i num k => onObj i (fillSparse num k)
  | .cooViewOfSkop i num k => do
    let o ← onObj i (cooViewOfSkop num k)
    addObj o
  | .lskges i num mid k => onObj i (lskges num mid k)
  | .rskges i num mid k => onObj i (rskges num mid k)
  | .reserve i nnz => onObj i (reserve nnz)
  | .access i mid => onObj i (touchMatrix mid)
  | .fromDense i nnz => onObj i (do
    reserve nnz
    touchMatrix none)
  | .spmm i mid tr scale blocks => onObj i (spmm mid tr scale blocks)
  | .cooToCs mid i j => cooToCs mid i j
  | .csToCoo mid i j => csToCoo mid i j
  | .transposeCoo i => transposeCoo i
  | .transposeCs share i => transposeCs share i
  | .userNew => onStHeap fun h => (.ok (), h ++ [⟨false, 0⟩])
  | .userDelete a => onStHeap (deleteArray (some a))
  | .attachDense i p => onObj i (M.modify fun s => (⟨.dense, false, 0, p, none, none⟩, s.2))

/-- Run a history; exceptions are caught by the user. `none`: undefined behaviour. No lines of its own: a user of the classes of RandBLAS/dense_skops.hh:335-455 and of the others modelled here. -/
def run : List Cmd → St → Option St
  | [], s => some s
  | c :: cs, s => match exec c s with
    | (.ub, _) => none
    | (_, s') => run cs s'

end RB.Mem
