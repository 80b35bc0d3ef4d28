import Verif.Spec.Damage
/-
Calls that only look, and what somebody can find out about a program afterwards.
-/
namespace Urkel

/-- The calls that only look: `urkel_root`, `urkel_tx_root`, `urkel_tx_get`, `urkel_tx_has`,
`urkel_tx_prove`. -/
inductive Op.Quiet : Op → Prop
  | root : Quiet .root
  | txRoot (id : Nat) : Quiet (.txRoot id)
  | get (id : Nat) (k : B32) : Quiet (.get id k)
  | has (id : Nat) (k : B32) : Quiet (.has id k)
  | prove (id : Nat) (k : B32) : Quiet (.prove id k)

/-- What happens to a program: a call, its data files change, or the system calls are going to
fail in a certain way. -/
inductive Event where
  | call (op : Op)
  | rot (files : List Bytes)
  | faults (fs : List (Option Fault))

/-- How a program goes on. -/
inductive Answer where
  | ret (r : Ret)
  | aborts
  | undefined
  | refused (e : Err)
deriving DecidableEq

/-- `Observes E s es as db`: after the events `es` the program has got the answers `as` (one for
each call; only the last one may be something other than a return), and the database, with its
files, is `db`. -/
inductive Observes (E : Env) : Sys → List Event → List Answer → Db → Prop
  | done (s : Sys) : Observes E s [] [] s.db
  | call {s s' : Sys} {op : Op} {r : Ret} {es : List Event} {as : List Answer} {db : Db} :
      step E s op = .ok (s', r) → Observes E s' es as db → Observes E s (.call op :: es) (.ret r :: as) db
  | aborts {s : Sys} {op : Op} : step E s op = .abort → Observes E s [.call op] [.aborts] s.db
  | undefined {s : Sys} {op : Op} : step E s op = .ub → Observes E s [.call op] [.undefined] s.db
  | refused {s : Sys} {op : Op} {e : Err} : step E s op = .err e → Observes E s [.call op] [.refused e] s.db
  | rot {s : Sys} {files : List Bytes} {es : List Event} {as : List Answer} {db : Db} :
      files.map List.length = s.db.store.files.map List.length →
      Observes E { s with db := { s.db with store := { s.db.store with files := files } } } es as db →
      Observes E s (.rot files :: es) as db
  | faults {s : Sys} {fs : List (Option Fault)} {es : List Event} {as : List Answer} {db : Db} :
      Observes E { s with db := { s.db with store := { s.db.store with faults := fs } } } es as db →
      Observes E s (.faults fs :: es) as db

/-- `Trimmed es as es' as'`: the same history without some of the calls that only look. -/
inductive Trimmed : List Event → List Answer → List Event → List Answer → Prop
  | done : Trimmed [] [] [] []
  | drop {op : Op} {r : Ret} {es es' : List Event} {as as' : List Answer} :
      op.Quiet → Trimmed es as es' as' → Trimmed (.call op :: es) (.ret r :: as) es' as'
  | call {op : Op} {a : Answer} {es es' : List Event} {as as' : List Answer} :
      Trimmed es as es' as' → Trimmed (.call op :: es) (a :: as) (.call op :: es') (a :: as')
  | rot {files : List Bytes} {es es' : List Event} {as as' : List Answer} :
      Trimmed es as es' as' → Trimmed (.rot files :: es) as (.rot files :: es') as'
  | faults {fs : List (Option Fault)} {es es' : List Event} {as as' : List Answer} :
      Trimmed es as es' as' → Trimmed (.faults fs :: es) as (.faults fs :: es') as'

end Urkel
