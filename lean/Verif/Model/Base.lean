/-
Basic types of the model: bytes, fixed-size byte strings, error codes and
outcomes of C calls.
-/
namespace Urkel

/-- A byte buffer (`unsigned char *` plus its length). -/
abbrev Bytes := List UInt8

/-- A 32-byte buffer: `unsigned char hash[URKEL_HASH_SIZE]` and
`unsigned char key[URKEL_KEY_SIZE]` (internal.h:164-165). -/
structure B32 where
  bytes : Bytes
  len : bytes.length = 32
deriving DecidableEq

theorem B32.ext {a b : B32} (h : a.bytes = b.bytes) : a = b := by
  cases a; cases b; cases h; rfl

/-- The all-zero hash (nodes.c:68, `memset(node->hash, 0, …)`; it is the hash of
the null node and of the empty tree). -/
def B32.zero : B32 := ⟨List.replicate 32 0, by simp⟩

/-- `urkel_errno` codes (include/urkel.h:60-72). -/
inductive Err
  | EHASHMISMATCH | ESAMEKEY | ESAMEPATH | ENEGDEPTH | EPATHMISMATCH | ETOODEEP
  | EINVAL | ENOTFOUND | ECORRUPTION | ENOUPDATE | EBADWRITE | EBADOPEN | EITEREND
deriving DecidableEq, Repr

/-- Outcome of a C function: it returns (`ok`), fails with an `urkel_errno`
(`err`), kills the process through `CHECK`/`urkel_abort`
(internal.h CHECK, internal.c:16-33; `abort`), or has undefined behaviour (`ub`). -/
inductive Res (α : Type) where
  | ok (a : α)
  | err (e : Err)
  | abort
  | ub
deriving DecidableEq

namespace Res

def bind {α β : Type} : Res α → (α → Res β) → Res β
  | ok a, f => f a
  | err e, _ => err e
  | abort, _ => abort
  | ub, _ => ub

instance : Monad Res where
  pure := Res.ok
  bind := Res.bind

/-- The call neither aborts nor has undefined behaviour. -/
def Safe {α : Type} : Res α → Prop
  | ok _ => True
  | err _ => True
  | abort => False
  | ub => False

@[simp] theorem pure_eq {α : Type} (a : α) : (pure a : Res α) = ok a := rfl
@[simp] theorem bind_ok {α β : Type} (a : α) (f : α → Res β) : (ok a >>= f) = f a := rfl
@[simp] theorem bind_err {α β : Type} (e : Err) (f : α → Res β) : (err e >>= f) = err e := rfl
@[simp] theorem bind_abort {α β : Type} (f : α → Res β) : ((abort : Res α) >>= f) = abort := rfl
@[simp] theorem bind_ub {α β : Type} (f : α → Res β) : ((ub : Res α) >>= f) = ub := rfl
@[simp] theorem safe_ok {α : Type} (a : α) : (ok a).Safe := trivial
@[simp] theorem safe_err {α : Type} (e : Err) : (err e : Res α).Safe := trivial
@[simp] theorem not_safe_abort {α : Type} : ¬ (abort : Res α).Safe := id
@[simp] theorem not_safe_ub {α : Type} : ¬ (ub : Res α).Safe := id

theorem bind_eq_ok {α β : Type} {x : Res α} {f : α → Res β} {b : β} :
    (x >>= f) = ok b ↔ ∃ a, x = ok a ∧ f a = ok b := by
  cases x <;> simp

theorem bind_eq_err {α β : Type} {x : Res α} {f : α → Res β} {e : Err} :
    (x >>= f) = err e ↔ x = err e ∨ ∃ a, x = ok a ∧ f a = err e := by
  cases x <;> simp

end Res

/-- `CHECK(cond)` (internal.h:50-62, enabled unless built for coverage): abort the process unless the condition holds. -/
def check (b : Bool) : Res Unit := if b then .ok () else .abort

@[simp] theorem check_true : check true = .ok () := rfl
@[simp] theorem check_false : check false = .abort := rfl
theorem check_of {b : Bool} (h : b = true) : check b = .ok () := by subst h; rfl

/-- `URKEL_KEY_BITS`, `URKEL_VALUE_SIZE`, `URKEL_PROOF_SIZE` (internal.h:166-179). -/
def keyBits : Nat := 256
def valueSize : Nat := 1023
def proofSizeMax : Nat := 17957

end Urkel
