import Verif.Lemmas.HeapIterUse
import Verif.Props.Memory
import Verif.Props.Iter
/-
C67: iterators use memory correctly and give it back.
-/
namespace Urkel

/-- The heap of a program contains each of its open transactions. -/
theorem session_tx {A : Alloc} {E : Env} {d d' : Dir} {rand : B32} {db : Db} {tr : List (Op × Ret)} {s : Sys}
    (ho : dbOpen E d rand = .ok (d', .ok db)) (hc : NeatCalls E ⟨db, fun _ => none⟩ tr s) :
    ∃ hs heap, hSession A E d rand (tr.map Prod.fst) [] = .ok (.ok (hs, tr.map Prod.snd), heap) ∧ hs.db = s.db ∧ Flat s.db.store.state.rootNode ∧
      ∀ id tx, s.txs id = some tx → ∃ t F, hs.txs id = some t ∧ (ownTx t tx ∗∗ F) (view heap) := by
  obtain ⟨x, heap, e, hx⟩ := hSession_spec (A := A) ho hc emp [] (by rw [emp_sep]; intro a; rfl)
  rw [sep_emp] at hx
  obtain ⟨hs, ids, hx⟩ := hx
  obtain ⟨⟨rfl, ha⟩, hm⟩ := lpure_sep.1 hx
  refine ⟨hs, heap, e, ha.db, ha.flat, fun id tx hid => ?_⟩
  by_cases hi : id ∈ ids
  · unfold sysHeap at hm
    rw [star_take _ hi] at hm
    have hm' : (ownH (s.txs id) (hs.txs id) ∗∗ (pts hs.obj .raw ∗∗ pts hs.lock .raw ∗∗ star (ids.erase id) (fun i => ownH (s.txs i) (hs.txs i)))) (view heap) := by
      perm hm
    obtain ⟨m1, m2, hd, he, h1, h2⟩ := hm'
    rw [hid] at h1
    obtain ⟨t, ht, h1'⟩ := ownH_some h1
    exact ⟨t, _, ht, m1, m2, hd, he, h1', h2⟩
  · have := (ha.other id hi).1
    rw [hid] at this
    cases this

/-- C67 for any directory, faults and damaged files included: open it, make any calls, and
create an iterator over one of the open transactions. As long as the calls of the
functional model return, so do those of the program with memory, with the same
results. Nothing that is not allocated is used or freed, whether the iteration is
finished or abandoned and whether or not a call fails. What was allocated before is
unchanged all the while, the new blocks are at most 770, and when the iterator is
destroyed memory is what it was. -/
theorem C67_safe {A : Alloc} {E : Env} {d d' : Dir} {rand : B32} {db : Db} {tr : List (Op × Ret)} {s : Sys}
    (ho : dbOpen E d rand = .ok (d', .ok db)) (hc : NeatCalls E ⟨db, fun _ => none⟩ tr s) :
    ∃ hs heap, hSession A E d rand (tr.map Prod.fst) [] = .ok (.ok (hs, tr.map Prod.snd), heap) ∧ hs.db = s.db ∧
      ∀ id tx it, s.txs id = some tx → iterCreate tx = .ok it → ∃ t, hs.txs id = some t ∧
        ∀ dbs rs, iterCalls it dbs = .ok rs → IterRun A t dbs rs heap := by
  obtain ⟨hs, heap, e, hdb, _, h⟩ := session_tx (A := A) ho hc
  refine ⟨hs, heap, e, hdb, fun id tx it hid hi => ?_⟩
  obtain ⟨t, F, ht, hm⟩ := h id tx hid
  exact ⟨t, ht, fun dbs rs hr => iter_memory hm hi hr⟩

/-- The same for `urkel_iterate`, which makes a transaction of its own and destroys it with
the iterator; when it fails, memory is what it was. -/
theorem C67_iterate {A : Alloc} {E : Env} {d d' : Dir} {rand : B32} {db : Db} {tr : List (Op × Ret)} {s : Sys}
    (ho : dbOpen E d rand = .ok (d', .ok db)) (hc : NeatCalls E ⟨db, fun _ => none⟩ tr s) :
    ∃ hs heap, hSession A E d rand (tr.map Prod.fst) [] = .ok (.ok (hs, tr.map Prod.snd), heap) ∧
      (∀ h db' it, urkelIterate E s.db h = .ok (db', .ok it) → ∀ dbs rs, iterCalls it dbs = .ok rs → IterateRun A E hs.db db' h dbs rs heap) ∧
      (∀ h db' er, urkelIterate E s.db h = .ok (db', .error er) →
        ∃ heap1, hIterate A E hs.db h heap = .ok ((db', .error er), heap1) ∧ ∀ a, heap1.lookup a = heap.lookup a) := by
  obtain ⟨hs, heap, e, hdb, hf, _⟩ := session_tx (A := A) ho hc
  rw [← hdb] at hf
  rw [← hdb]
  exact ⟨hs, heap, e, fun h db' it hi dbs rs hr => iterate_memory hf hi hr heap, fun h db' er hi => iterate_error hf hi heap⟩

/-- C67 for the programs of C46 whose contents are `Shallow 127`: `n` calls on an open
transaction return the first `n` pairs in order, and EITEREND after the last, and memory
is what it was when the iterator is destroyed. -/
theorem C67_programs {A : Alloc} {E : Env} (hE : EnvOk E) {tr : List (Op × Ret)} {s : Sys} (h : Exec E tr s) (hn : NeatTrace tr) :
    ∃ rand hs heap, hSession A E Dir.fresh rand (tr.map Prod.fst) [] = .ok (.ok (hs, tr.map Prod.snd), heap) ∧
      ∀ id tx c, s.txs id = some tx → Shows s.db tx c → Shallow 127 c → ∃ t l, hs.txs id = some t ∧ Lists l c ∧
        ∀ ss, Amid E id s ss → IterRun A t (ss.map (·.db)) (listing l ss.length) heap := by
  obtain ⟨sp, hist, hsp, _⟩ := exec_sim hE h
  obtain ⟨rand, d, db, e, hcl, _⟩ := exec_calls h hn
  obtain ⟨hs, heap, e1, _, h1⟩ := C67_safe (A := A) e hcl
  refine ⟨rand, hs, heap, e1, fun id tx c hid hc hsh => ?_⟩
  obtain ⟨it, l, hi, hl, hr⟩ := C30_iteration_partial hE ⟨_, h⟩ hid hc hsh
  obtain ⟨t, ht, h2⟩ := h1 id tx it hid hi
  exact ⟨t, l, ht, hl, fun ss hss => h2 _ _ (hr ss hss)⟩

/-- An iteration over a transaction that is partly in memory and partly on disk, with four
calls: three pairs and the end. -/
def iterExample : Bool :=
  match hSession bumpAlloc toyEnv Dir.fresh B32.zero
    [.create 0 none, .insert 0 (keyOf 1) [7], .insert 0 (keyOf 129) [], .commit 0, .insert 0 (keyOf 3) [5]] [] with
  | .ok (.ok (hs, _), heap) =>
    (match hs.txs 0 with
    | some t =>
      (match hIterCreate bumpAlloc t heap with
      | .ok (it, heap1) =>
        (match hIterCalls bumpAlloc it [hs.db, hs.db, hs.db, hs.db] heap1 with
        | .ok ((it', rs), heap2) =>
          decide (rs.map (fun r => match r with | .ok p => some p | .error _ => none) = [some (keyOf 1, [7]), some (keyOf 3, [5]), some (keyOf 129, []), none]) &&
          (match hIterDestroy it' heap2 with
          | .ok ((), heap3) => decide (heap3.length = heap.length)
          | _ => false)
        | _ => false)
      | _ => false)
    | none => false)
  | _ => false

example : iterExample = true := by decide +kernel

end Urkel
