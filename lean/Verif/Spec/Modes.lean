import Verif.Model.Modes

/-!
Specification for C96, independent of how the code translates: what the numbers mean to
a POSIX kernel.
-/

namespace Urkel.Modes

/-- What the kernel does with the mode of a new file: the bits of the umask are taken
away. -/
def Permits (umask mode bit : Nat) : Prop := mode.testBit bit ∧ ¬ umask.testBit bit

/-- The bits by the numbers POSIX fixes: 8, 7, 6 read, write, execute for the owner;
5, 4, 3 for the group; 2, 1, 0 for others; 11 and 10 set-user-ID and set-group-ID. -/
def ownerRead := 8
def ownerWrite := 7
def ownerExec := 6
def groupRead := 5
def groupWrite := 4
def groupExec := 3

/-- How the data in a file can be touched through a descriptor opened with these flags
(Linux): the low two bits are the access mode, bit 9 empties the file, bit 10 makes every
write go to the end, bit 6 creates the file if it is missing. -/
structure Access where
  read : Bool
  write : Bool
  truncate : Bool
  append : Bool
  create : Bool
  deriving DecidableEq, Repr

def access (flags : Nat) : Access :=
  { read := flags % 4 = 0 ∨ flags % 4 = 2
    write := flags % 4 = 1 ∨ flags % 4 = 2
    truncate := flags.testBit 9
    append := flags.testBit 10
    create := flags.testBit 6 }

/-- What each place needs: data files are written at their end only, only the key file and
the lock file are ever emptied, and neither recovery nor a reader creates a file. -/
def Site.touches : Site → Access
  | .readKey => ⟨true, false, false, false, false⟩
  | .writeKey => ⟨false, true, true, false, true⟩
  | .lock => ⟨true, true, true, false, true⟩
  | .recover => ⟨true, true, false, false, false⟩
  | .dataWrite => ⟨true, true, false, true, true⟩
  | .dataRead => ⟨true, false, false, false, false⟩

/-- Whether descriptor `fd` is closed by exec after these calls, given whether it was
before: a successful open decides it by bit 19 of its flags, a successful
`F_SETFD` by bit 0 of its argument. -/
def closedByExec (fd : Nat) : Bool → Trace → Bool
  | b, [] => b
  | b, (.open f _, .ok n) :: t => closedByExec fd (if n = fd then f.testBit 19 else b) t
  | b, (.setfd n v, .ok _) :: t => closedByExec fd (if n = fd then v.testBit 0 else b) t
  | b, _ :: t => closedByExec fd b t

/-- No `fcntl` failed, other than by being interrupted. -/
def FcntlWorks (t : Trace) : Prop :=
  ∀ c e, (c, .error e) ∈ t → e ≠ .intr → ∃ f m, c = .open f m

/-- How often `open` succeeded. -/
def opened (t : Trace) : Nat :=
  (t.filter fun c => match c with | (.open _ _, .ok _) => true | _ => false).length

/-- The kind of a file, by the four bits POSIX reserves for it, as `S_ISREG` and its
likes ask for it (/repo/src/io.h:62-68). -/
def kind (m : Nat) : Nat := m &&& 0o170000

end Urkel.Modes
