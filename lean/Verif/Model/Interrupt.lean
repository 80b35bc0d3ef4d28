import Verif.Model.Store
/-
The states of the directory while `urkel_open` recovers it, for opens that are killed.
-/
namespace Urkel

/-- The data files after each system call that changes them, in order, while
`urkel_store_recover_state` (store.c:1028-1064) and the opening of the current file
(store.c:1101) run: unlinking files from the last one down, cutting the file that has a
valid record, creating file 1 if none is left. Same arguments as `recoverState`. -/
def recoverTrace (E : Env) (key : B32) (files : List Bytes) : Nat → Meta → Res (List (List Bytes))
  | 0, _ => .ok [[[]]]
  | n + 1, m => do
    let f := files.getD n []
    let (r, m) ← findMeta E key f (f.length / metaSize) m
    match r with
    | some off => pure [files.take n ++ [f.take (off + metaSize)]]
    | none => do
      let rest ← recoverTrace E key files n m
      pure (files.take n :: rest)

end Urkel
