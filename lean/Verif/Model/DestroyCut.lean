import Verif.Model.Destroy
/-
store.c:1152-1212: the states of the file system on the way through `urkel_store_destroy`, one after each of the system calls that can
change it. A process killed in the middle of the call leaves one of them. Code and order are those of `storeDestroy` (Model/Destroy).
-/
namespace Urkel

/-- The loop (store.c:1184-1193): after each `unlink`. -/
def destroyLoopTrace (W : Faults) (n : Nat) : List Bytes → Bytes → Fs → List Fs
  | [], _, _ => []
  | name :: rest, path, fs =>
    match parseU32 (name ++ [0]) with
    | .ok num =>
      if num.isSome ∨ strcmp name nameMeta = 0 then
        match wrMany path n (name ++ [0]) with
        | .ok path => fs.unlink W (cstr path) :: destroyLoopTrace W n rest path (fs.unlink W (cstr path))
        | _ => []
      else destroyLoopTrace W n rest path fs
    | _ => []

/-- After label `fail` (store.c:1198-1207): after removing the lock file, and the directory. -/
def destroyEndTrace (W : Faults) (pfx : Bytes) (ret : Bool) (path : Bytes) (fs : Fs) : List Fs :=
  match wrMany path (pfx.length + 1) (nameLock ++ [0]) with
  | .ok path => fs.unlink W (cstr path) :: (if ret then [((fs.unlink W (cstr path)).rmdir W pfx).2] else [])
  | _ => []

/-- `urkel_store_destroy` (store.c:1152-1212): the states, the first one before the call. -/
def destroyTrace (W : Faults) (fs : Fs) (pfx : Bytes) (buf : Bytes) : List Fs :=
  if pfx.length + 10 > pathMax then [fs]
  else match (do
      let path ← wrMany buf 0 (pfx ++ [0])
      let path ← wrAt path pfx.length 47
      wrMany path (pfx.length + 1) (nameLock ++ [0]) : Res Bytes) with
    | .ok path =>
      let r := fs.openLock W (cstr path)
      if r.1 = false then [fs, r.2]
      else if W.scanFails then fs :: r.2 :: destroyEndTrace W pfx false path r.2
      else
        let names := scandir (r.2.names pfx)
        fs :: r.2 :: (destroyLoopTrace W (pfx.length + 1) names path r.2 ++
          match destroyLoop W (pfx.length + 1) names path r.2 with
          | .ok q => destroyEndTrace W pfx true q.1 q.2
          | _ => [])
    | _ => [fs]

end Urkel
