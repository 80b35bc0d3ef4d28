import Verif.Model.Blake2b
/-
io_posix.c:1205-1350: `urkel_ps_cwd`, `urkel_path_normalize`, `urkel_path_resolve`.
Paths are bytes: 47 is '/', 46 is '.', 0 ends the string. `malloc` and `realloc`
are taken to succeed.
-/
namespace Urkel

/-- `path[i]`. -/
def pathAt (buf : Bytes) (i : Nat) : Res UInt8 :=
  match buf[i]? with
  | some c => .ok c
  | none => .ub

/-- `path[i] = c`. -/
def pathSet (buf : Bytes) (i : Nat) (c : UInt8) : Res Bytes :=
  if i < buf.length then .ok (buf.set i c) else .ub

/-- `do { l += 1; } while (path[l] == '/')` (io_posix.c:1265-1267), after the first
increment. -/
def skipSlashes (buf : Bytes) (l : Nat) : Res Nat :=
  match h : buf[l]? with
  | some c => if c = 47 then skipSlashes buf (l + 1) else .ok l
  | none => .ub
termination_by buf.length - l
decreasing_by
  have := (List.getElem?_eq_some_iff.1 h).1
  omega

/-- `do { w -= 1; } while (w > 0 && path[w - 1] != '/')` (io_posix.c:1287-1289), after
the first decrement. -/
def windBack (buf : Bytes) : Nat → Res Nat
  | 0 => .ok 0
  | w + 1 =>
    match buf[w]? with
    | some c => if c ≠ 47 then windBack buf w else .ok (w + 1)
    | none => .ub

/-- Whether the write position is at the start of a component (io_posix.c:1262). -/
def atStart (buf : Bytes) (w : Nat) : Res Bool :=
  if w = 0 then .ok true
  else do
    let c ← pathAt buf (w - 1)
    pure (c == 47)

/-- `path[w++] = path[l++]` (io_posix.c:1302). -/
def normCopy (buf : Bytes) (l w : Nat) : Res (Bytes × Nat × Nat) := do
  let c ← pathAt buf l
  let buf ← pathSet buf w c
  pure (buf, l + 1, w + 1)

/-- The segment `..` (io_posix.c:1283-1299). -/
def normUp (buf : Bytes) (l w : Nat) (c2 : UInt8) : Res (Bytes × Nat × Nat) := do
  let w ← if w > 1 then windBack buf (w - 1) else pure w
  pure (buf, (if c2 ≠ 0 then l + 2 + 1 else l + 2), w)

/-- A component starting with `.` (io_posix.c:1271-1300). -/
def normDot (buf : Bytes) (l w : Nat) : Res (Bytes × Nat × Nat) := do
  let c1 ← pathAt buf (l + 1)
  if c1 = 47 ∨ c1 = 0 then pure (buf, (if c1 ≠ 0 then l + 1 + 1 else l + 1), w)
  else if c1 = 46 then do
    let c2 ← pathAt buf (l + 2)
    if c2 = 47 ∨ c2 = 0 then normUp buf l w c2
    else normCopy buf l w
  else normCopy buf l w

/-- One pass of the main loop (io_posix.c:1262-1302) on the character `c = path[l]`. -/
def normStep (buf : Bytes) (l w : Nat) (c : UInt8) : Res (Bytes × Nat × Nat) := do
  let p ← atStart buf w
  if p then
    if c = 47 then do
      let l ← skipSlashes buf (l + 1)
      pure (buf, l, w)
    else if c = 46 then normDot buf l w
    else normCopy buf l w
  else normCopy buf l w

/-- The main loop (io_posix.c:1261-1303). A pass that does not advance would loop for
ever (`ub`). -/
def normLoop (buf : Bytes) (l w : Nat) : Res (Bytes × Nat) :=
  match pathAt buf l with
  | .ok c =>
    if c = 0 then .ok (buf, w)
    else match normStep buf l w c with
      | .ok (buf', l', w') =>
        if _h : buf'.length - l' < buf.length - l then normLoop buf' l' w' else .ub
      | .err e => .err e
      | .abort => .abort
      | .ub => .ub
  | .err e => .err e
  | .abort => .abort
  | .ub => .ub
termination_by buf.length - l

/-- `while (w > 1 && path[w - 1] == '/') w -= 1` (io_posix.c:1305-1306). -/
def stripSlash (buf : Bytes) : Nat → Res Nat
  | 0 => .ok 0
  | w + 1 =>
    if w + 1 > 1 then
      match buf[w]? with
      | some c => if c = 47 then stripSlash buf w else .ok (w + 1)
      | none => .ub
    else .ok (w + 1)

/-- `urkel_path_normalize` (io_posix.c:1240-1311): the buffer and the new length. -/
def pathNormalize (buf : Bytes) : Res (Bytes × Nat) := do
  let c ← pathAt buf 0
  if c ≠ 47 ∧ c = 0 then pure (buf, 0)
  else do
    let start := if c ≠ 47 then 0 else 1
    let (buf, w) ← normLoop buf start start
    let w ← stripSlash buf w
    let buf ← pathSet buf w 0
    pure (buf, w)

/-- `urkel_path_resolve` (io_posix.c:1313-1350): `path = none` is NULL; `cwd` is what
`getcwd` returns, `none` if it fails, as it does for a directory that does not fit in
8193 bytes with its terminator; `junk` is what `malloc` leaves in the memory. The result
is the returned block of memory. -/
def pathResolve (path : Option Bytes) (cwd : Option Bytes) (junk : Bytes) : Res (Option Bytes) :=
  let p := path.getD []
  let max := 8192
  if p.length > 0 ∧ p.head? = some 47 then do
    let (buf, w) ← pathNormalize (p ++ [0])
    pure (some (buf.take (w + 1)))
  else match cwd with
    | none => .ok none
    | some d =>
      if d.length + 1 > max + 1 then .ok none
      else if d.length + 1 + p.length > max then .ok none
      else do
        let buf ← bufCopy (junk.take (max + 1)) 0 (d ++ [0])
        let buf ← if p.length ≠ 0 then do
            let buf ← pathSet buf d.length 47
            bufCopy buf (d.length + 1) (p ++ [0])
          else pure buf
        let (buf, w) ← pathNormalize buf
        pure (some (buf.take (w + 1)))

end Urkel
