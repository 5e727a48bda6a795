import Verif.Triangle

/-!
# `totri` with tables as mutable objects (`trikit/triangle.py`:1289-1407)

Tables live in a heap and are passed by reference, so that in-place assignments (`data[value] = ...`,
`data["cumval"] = ...`) are visible to everybody who holds the reference.  Column names, argument strings
and the error branches are modelled literally.

Simplifications: column names of a passed table are distinct; a column used as origin or development
period holds integers, a column used as value holds numbers (other cells are read as 0 or NaN); a
triangle-shaped argument is a frame with an unnamed integer index and integer columns.  What happens to a
*table* passed with `data_shape="triangle"` is not modelled: it is an arbitrary function `odd` of the copy
made by `reset_index` / `diff`.
-/

set_option linter.unusedSectionVars false

namespace Trikit

variable {K : Type}

/-- One entry of a table. -/
inductive Cell (K : Type) where
  | int (i : Int)
  | num (v : Num K)
  | text (s : String)
  deriving DecidableEq

/-- A table: column names and rows. -/
structure Frame (K : Type) where
  cols : List String
  rows : List (String → Cell K)

/-- An object of the heap: a table or a frame shaped like a triangle. -/
inductive Obj (K : Type) where
  | table (f : Frame K)
  | grid (t : Tri K)

/-- The heap; references are positions. -/
abbrev Heap (K : Type) := List (Obj K)

/-- The table behind a reference; a triangle-shaped frame has no column with a string name. -/
def frameAt (h : Heap K) (r : ℕ) : Frame K :=
  match h[r]? with
  | some (.table f) => f
  | _ => ⟨[], []⟩

/-- Allocation of a new table. -/
def alloc (h : Heap K) (f : Frame K) : Heap K × ℕ := (h ++ [.table f], h.length)

/-- Overwriting the object behind a reference. -/
def setAt (h : Heap K) (r : ℕ) (f : Frame K) : Heap K := h.set r (.table f)

namespace Cell

/-- A label. -/
def asInt : Cell K → Int
  | int i => i
  | _ => 0

/-- A number. -/
def asNum [Field K] : Cell K → Num K
  | num v => v
  | int i => .fin (i : K)
  | text _ => .nan

end Cell

namespace Frame

/-- `df.rename({a: b}, axis=1)`: nothing happens when `a` is absent. -/
def rename (f : Frame K) (a b : String) : Frame K :=
  if a ∈ f.cols then
    ⟨f.cols.map (fun c => if c = a then b else c), f.rows.map (fun r c => if c = b then r a else r c)⟩
  else f

/-- `df.drop(a, axis=1)`. -/
def drop (f : Frame K) (a : String) : Frame K := ⟨f.cols.filter (fun c => decide (c ≠ a)), f.rows⟩

/-- `df[c] = vals`. -/
def setNum (f : Frame K) (c : String) (vals : List (Num K)) : Frame K :=
  ⟨if c ∈ f.cols then f.cols else f.cols ++ [c],
    List.zipWith (fun r x => fun s => if s = c then .num x else r s) f.rows vals⟩

/-- The records of a table under given column names. -/
def recs [Field K] (f : Frame K) (o d v : String) : List (Rec K) :=
  f.rows.map (fun r => ⟨(r o).asInt, (r d).asInt, (r v).asNum⟩)

/-- A table of records with the given column names. -/
def ofRecs (o d v : String) (l : List (Rec K)) : Frame K :=
  ⟨[o, d, v], l.map (fun r c =>
    if c = o then .int r.origin else if c = d then .int r.dev else .num r.value)⟩

end Frame

/-! ### argument strings -/

/-- `str.isspace` for one character. -/
def pySpace (c : Char) : Bool :=
  let n := c.toNat
  (9 ≤ n && n ≤ 13) || (28 ≤ n && n ≤ 32) || n == 133 || n == 160 || n == 5760 ||
    (8192 ≤ n && n ≤ 8202) || n == 8232 || n == 8233 || n == 8239 || n == 8287 || n == 12288

/-- `s.lower().startswith("i")`: the lower case of the dotted capital I also starts with `i`. -/
def startsI : List Char → Bool
  | c :: _ => c == 'i' || c == 'I' || c == 'İ'
  | [] => false

/-- `s.lower().startswith("c")`. -/
def startsC : List Char → Bool
  | c :: _ => c == 'c' || c == 'C'
  | [] => false

/-- Leading part of `s.strip()`; trailing blanks do not matter for `startswith`. -/
def pyStripL (s : String) : List Char := s.toList.dropWhile pySpace

section
variable [Field K] [LinearOrder K]

/-! ### constructors -/

/-- `_BaseTriangle.__init__` (triangle.py:41-59): `_validate` (81-112), `_neg_handler` (116-123, which
assigns to the passed table), grouping and pivot.  An empty table raises before the assignment. -/
def baseInitH (h : Heap K) (r : ℕ) (o d v : String) : Heap K × Except PyErr (Tri K) :=
  let f := frameAt h r
  if o ∉ f.cols ∨ d ∉ f.cols ∨ v ∉ f.cols then (h, .error .attributeError)
  else
    let recs := f.recs o d v
    if recs = [] then (h, .error .valueError)
    else (setAt h r (f.setNum v ((negHandler recs).map Rec.value)), .ok (pivot (negHandler recs)))

/-- `_BaseCumTriangle.__init__` (triangle.py:462-468): `data["cumval"] = ...` assigns to the passed table,
`drop` and `rename` make copies. -/
def cumInitH (h : Heap K) (r : ℕ) (o d v : String) : Heap K × Except PyErr (Tri K) :=
  let f := frameAt h r
  if o ∉ f.cols ∨ v ∉ f.cols then (h, .error .keyError)
  else
    let h1 := setAt h r (f.setNum "cumval" ((cumRecs (f.recs o d v)).map Rec.value))
    let (h2, r2) := alloc h1 (((frameAt h1 r).drop v).rename "cumval" v)
    baseInitH h2 r2 o d v

/-! ### totri -/

/-- A triangle object: its kind, its cells and the column names it remembers (triangle.py:62-64). -/
structure TriObj (K : Type) where
  cum : Bool
  tri : Tri K
  o : String
  d : String
  v : String

/-- Tabular cumulative input (triangle.py:1376-1380): `rename` copies, the column `incr` is assigned to
the copy (the two assignments are merged), `drop` and `rename` copy again.  A second column `cum` makes
`df.groupby([origin])["cum"]` a frame, which cannot be assigned to one column. -/
def decumH (h : Heap K) (r : ℕ) (o v : String) : Heap K × Except PyErr ℕ :=
  let (h1, r1) := alloc h ((frameAt h r).rename v "cum")
  let f := frameAt h1 r1
  if o ∉ f.cols ∨ "cum" ∉ f.cols then (h1, .error .keyError)
  else if f.cols.count "cum" ≠ 1 then (h1, .error .valueError)
  else
    let h2 := setAt h1 r1 (f.setNum "incr" ((decumRecs (f.recs o o "cum")).map Rec.value))
    let (h3, r3) := alloc h2 (((frameAt h2 r1).drop "cum").rename "incr" v)
    (h3, .ok r3)

/-- The table that is turned into a triangle (triangle.py:1351-1382), before `reset_index`. -/
def prepH (odd : Frame K → Bool → Except PyErr (Frame K)) (h : Heap K) (r : ℕ)
    (fmt shape : String) (o v : String) : Heap K × Except PyErr ℕ :=
  if shape = "triangle" then
    if startsI (pyStripL fmt) then
      match h[r]? with
      | some (.grid t) => let (h1, r1) := alloc h (Frame.ofRecs "origin" "dev" "value" (meltIncr t)); (h1, .ok r1)
      | _ => match odd (frameAt h r) false with
        | .error e => (h, .error e)
        | .ok f => let (h1, r1) := alloc h f; (h1, .ok r1)
    else if startsC (pyStripL fmt) then
      match h[r]? with
      | some (.grid t) => let (h1, r1) := alloc h (Frame.ofRecs "origin" "dev" "value" (meltCum t)); (h1, .ok r1)
      | _ => match odd (frameAt h r) true with
        | .error e => (h, .error e)
        | .ok f => let (h1, r1) := alloc h f; (h1, .ok r1)
    else (h, .error .nameError)
  else if shape = "tabular" then
    if startsC (pyStripL fmt) then decumH h r o v
    else (h, .ok r)
  else (h, .error .nameError)

/-- `totri` (triangle.py:1289-1407). -/
def totri (odd : Frame K → Bool → Except PyErr (Frame K)) (h : Heap K) (r : ℕ)
    (triType fmt shape o d v : String) : Heap K × Except PyErr (TriObj K) :=
  match prepH odd h r fmt shape o v with
  | (h1, .error e) => (h1, .error e)
  | (h1, .ok r1) =>
    let (h2, r2) := alloc h1 (frameAt h1 r1)
    if startsI triType.toList then
      let (h3, t) := baseInitH h2 r2 o d v
      (h3, t.map (fun t => ⟨false, t, o, d, v⟩))
    else if startsC triType.toList then
      let (h3, t) := cumInitH h2 r2 o d v
      (h3, (t.bind fillTri).map (fun t => ⟨true, t, o, d, v⟩))
    else (h2, .error .unboundLocalError)

/-! ### methods that use the remembered names -/

/-- `to_tbl()` (triangle.py:337-354): the index becomes a column `origin`, `pd.melt` wants a column named
`self.origin`. -/
def TriObj.toTbl (x : TriObj K) : Except PyErr (List (Rec K)) :=
  if x.o = "origin" then .ok x.tri.toTbl else .error .keyError

/-- `latest` (triangle.py:198-217): merge with `to_tbl()` on `self.origin`, `self.dev`; the left table has
the columns `self.origin` and `dev`. -/
def TriObj.latest (x : TriObj K) : Except PyErr (List (Rec K)) := do
  let _ ← x.toTbl
  if x.d = "dev" then .ok x.tri.latest else .error .keyError

/-- `IncrTriangle.to_cum` (triangle.py:427-435): the constructor is called with the default names. -/
def TriObj.toCum (x : TriObj K) : Except PyErr (Tri K) := do
  let _ ← x.toTbl
  (cumInitH [.table (Frame.ofRecs x.o x.d x.v x.tri.toTbl)] 0 "origin" "dev" "value").2

end

end Trikit
