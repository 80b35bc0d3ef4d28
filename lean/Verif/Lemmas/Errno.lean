import Verif.Spec.Errno
import Verif.Lemmas.NoErr
import Verif.Lemmas.Trace
/-
The calls of Model/Errno.lean, with an error number of their own, against those of
Model/Tree.lean and Model/Api.lean.
-/
namespace Urkel

theorem code_is (e : Err) : IsCode e.code e := by cases e <;> exact ⟨by decide, by decide⟩

theorem code_ne (e : Err) : e.code ≠ 0 := by cases e <;> decide

theorem code_inj {e e' : Err} (h : e.code = e'.code) : e = e' := by
  cases e <;> cases e' <;> first | rfl | exact absurd h (by decide)

@[simp] theorem libc_tls (c : Caller) : libc true c = c := rfl

theorem bufCopy_front {b d : Bytes} (h : d.length ≤ b.length) : bufCopy b 0 d = .ok (d ++ b.drop d.length) := by
  unfold bufCopy
  rw [if_pos (by omega)]
  simp

theorem storeRead_length {s : Store} (hb : s.Backed) {n i p : Nat} {d : Bytes} (e : storeRead s n i p = some d) : d.length = n := by
  unfold storeRead at e
  split at e
  · cases e
  · split at e
    · cases e
    · rename_i f hf
      by_cases hi : i = s.index
      · have := hb f (by rw [← hi]; exact hf)
        simp only [hi, if_true] at e
        split at e
        · cases e; rename_i h0; simp [h0]
        · split at e
          · cases e
          · cases e; simp; omega
      · simp only [if_neg hi] at e
        split at e
        · cases e; rename_i h0; simp [h0]
        · split at e
          · cases e
          · cases e; simp; omega

/-- Reading a value into the caller's buffer. -/
theorem cRetrieve_eq {s : Store} (hb : s.Backed) (v : Option Bytes) (vp : Option Ptr) {c : Caller} (hc : c.Room) :
    cRetrieve true s v vp c = storeRetrieve s v vp >>= fun x => pure (match x with | some x => (true, c.gets x) | none => (false, c)) := by
  unfold cRetrieve storeRetrieve
  cases v with
  | some v =>
    dsimp only
    by_cases h : v.length ≤ valueSize
    · rw [check_of (decide_eq_true h)]
      have h' : v.length ≤ c.value.length := Nat.le_trans h hc.1
      by_cases h0 : v.length > 0
      · simp only [Res.bind_ok, if_pos h0, bufCopy_front h', Res.pure_eq]; rfl
      · have : v = [] := List.length_eq_zero_iff.1 (by omega)
        subst this
        simp [Caller.gets]
    · have e : check (decide (v.length ≤ valueSize)) = .abort := by simp [h]
      simp only [e]; rfl
  | none =>
    cases vp with
    | none => rfl
    | some p =>
      dsimp only
      by_cases h : p.size > valueSize
      · rw [if_pos h, if_pos h]; rfl
      · rw [if_neg h, if_neg h, storeReadInto_ok (by exact h)]
        cases e : storeRead s p.size p.index p.pos with
        | none => rfl
        | some d =>
          have hl := storeRead_length hb e
          have h' : d.length ≤ c.value.length := by rw [hl]; exact Nat.le_trans (Nat.le_of_not_lt h) hc.1
          simp only [Res.bind_ok, bufCopy_front h', Res.pure_eq, libc_tls]
          rw [← hl]; rfl

/-- What a lookup leaves in the caller's variables. -/
def got (want : Bool) (c : Caller) : Except Err Bytes → Bool × Caller
  | .ok v => (true, if want then c.gets v else c)
  | .error e => (false, setErr e c)

theorem cTreeGet_eq {s : Store} (hb : s.Backed) (key : B32) (want : Bool) : ∀ (fuel : Nat) (n : Node) (d : Nat) {c : Caller}, c.Room →
    cTreeGet true s key want fuel n d c = catchErr (treeGet s key want fuel n d) >>= fun r => pure (got want c r)
  | 0, _, _, _, _ => rfl
  | fuel + 1, n, d, c, hc => by
    cases n with
    | null => rfl
    | leaf h p k v vp =>
      simp only [cTreeGet, treeGet]
      by_cases hk : k ≠ key
      · rw [if_pos hk, if_pos hk]; rfl
      · rw [if_neg hk, if_neg hk]
        cases want with
        | false => rfl
        | true =>
          simp only [if_true, cRetrieve_eq hb v vp hc]
          cases e : storeRetrieve s v vp with
          | ok x => cases x <;> rfl
          | err x => exact absurd e (storeRetrieve_ne s v vp x)
          | abort => rfl
          | ub => rfl
    | internal h p pre l r =>
      simp only [cTreeGet, treeGet]
      cases e : bitsHas pre key.bytes d with
      | ok b =>
        cases b with
        | false => rfl
        | true =>
          simp only [Res.bind_ok]
          cases e2 : getBit key.bytes (d + pre.size) with
          | ok bit => exact cTreeGet_eq hb key want fuel _ _ hc
          | err x => exact absurd e2 (getBit_ne _ _ x)
          | abort => rfl
          | ub => rfl
      | err x => exact absurd e (bitsHas_ne _ _ _ x)
      | abort => rfl
      | ub => rfl
    | hash h p =>
      simp only [cTreeGet, treeGet]
      cases e : storeResolve s h p with
      | ok r =>
        cases r with
        | none => rfl
        | some rn =>
          simp only [Res.bind_ok, libc_tls, cTreeGet_eq hb key want fuel rn d hc]
          cases catchErr (treeGet s key want fuel rn d) <;> rfl
      | err x => exact absurd e (storeResolve_ne _ _ _ x)
      | abort => rfl
      | ub => rfl

/-- What inserting and removing leave: the new node, or NULL and an error number. -/
def made (c : Caller) : Except Err Node → Option Node × Caller
  | .ok n => (some n, c)
  | .error e => (none, setErr e c)

theorem cTreeInsert_eq (E : Env) (s : Store) (key : B32) (value : Bytes) : ∀ (fuel : Nat) (n : Node) (d : Nat) (c : Caller),
    cTreeInsert true E s key value fuel n d c = catchErr (treeInsert E s key value fuel n d) >>= fun r => pure (made c r)
  | 0, _, _, _ => rfl
  | fuel + 1, n, d, c => by
    cases n with
    | null => rfl
    | leaf h p k v vp =>
      simp only [cTreeInsert, treeInsert]
      by_cases hk : k = key
      · rw [if_pos hk, if_pos hk]
        by_cases hv : valueEquals v value = true
        · rw [if_pos hv, if_pos hv]; rfl
        · rw [if_neg hv, if_neg hv]; rfl
      · rw [if_neg hk, if_neg hk]
        cases e : bitsCollide ⟨256, k.bytes⟩ key.bytes d with
        | ok pre =>
          simp only [Res.bind_ok]
          cases e2 : getBit key.bytes (d + pre.size) with
          | ok bit => rfl
          | err x => exact absurd e2 (getBit_ne _ _ x)
          | abort => rfl
          | ub => rfl
        | err x => exact absurd e (bitsCollide_ne _ _ _ x)
        | abort => rfl
        | ub => rfl
    | internal h p pre l r =>
      simp only [cTreeInsert, treeInsert]
      cases e : bitsCount pre key.bytes d with
      | ok bits =>
        simp only [Res.bind_ok]
        cases e2 : getBit key.bytes (d + bits) with
        | ok bit =>
          simp only [Res.bind_ok]
          by_cases hb : bits ≠ pre.size
          · rw [if_pos hb, if_pos hb]
            cases e3 : bitsSplit pre bits with
            | ok fb => rfl
            | err x => exact absurd e3 (bitsSplit_ne _ _ x)
            | abort => rfl
            | ub => rfl
          · rw [if_neg hb, if_neg hb, cTreeInsert_eq E s key value fuel]
            cases treeInsert E s key value fuel (side l r bit) (d + bits + 1) <;> rfl
        | err x => exact absurd e2 (getBit_ne _ _ x)
        | abort => rfl
        | ub => rfl
      | err x => exact absurd e (bitsCount_ne _ _ _ x)
      | abort => rfl
      | ub => rfl
    | hash h p =>
      simp only [cTreeInsert, treeInsert]
      cases e : storeResolve s h p with
      | ok r =>
        cases r with
        | none => rfl
        | some rn =>
          simp only [Res.bind_ok, libc_tls, cTreeInsert_eq E s key value fuel rn d]
          cases catchErr (treeInsert E s key value fuel rn d) <;> rfl
      | err x => exact absurd e (storeResolve_ne _ _ _ x)
      | abort => rfl
      | ub => rfl

theorem cTreeRemove_eq (s : Store) (key : B32) : ∀ (fuel : Nat) (n : Node) (d : Nat) (c : Caller),
    cTreeRemove true s key fuel n d c = catchErr (treeRemove s key fuel n d) >>= fun r => pure (made c r)
  | 0, _, _, _ => rfl
  | fuel + 1, n, d, c => by
    cases n with
    | null => rfl
    | leaf h p k v vp =>
      simp only [cTreeRemove, treeRemove]
      by_cases hk : k ≠ key
      · rw [if_pos hk, if_pos hk]; rfl
      · rw [if_neg hk, if_neg hk]; rfl
    | internal h p pre l r =>
      simp only [cTreeRemove, treeRemove]
      cases e : bitsHas pre key.bytes d with
      | ok b =>
        cases b with
        | false => rfl
        | true =>
          simp only [Res.bind_ok]
          cases e2 : getBit key.bytes (d + pre.size) with
          | ok bit =>
            simp only [Res.bind_ok, cTreeRemove_eq s key fuel, Bool.not_true, Bool.false_eq_true, if_false]
            cases treeRemove s key fuel (side l r bit) (d + pre.size + 1) with
            | err x => rfl
            | abort => rfl
            | ub => rfl
            | ok z =>
              cases z with
              | leaf _ _ _ _ _ => rfl
              | internal _ _ _ _ _ => rfl
              | hash _ _ => rfl
              | null =>
                simp only [catchErr, Res.bind_ok, Res.pure_eq, made]
                cases side l r (!bit) with
                | null => rfl
                | leaf _ _ _ _ _ => rfl
                | internal _ _ spre sl sr =>
                  simp only [Res.bind_ok]
                  cases e3 : bitsJoin pre spre (!bit) with
                  | ok j => rfl
                  | err x => exact absurd e3 (bitsJoin_ne _ _ _ x)
                  | abort => rfl
                  | ub => rfl
                | hash hh pp =>
                  simp only
                  cases e4 : storeResolve s hh pp with
                  | ok r =>
                    cases r with
                    | none => rfl
                    | some rn =>
                      cases rn with
                      | null => rfl
                      | leaf _ _ _ _ _ => rfl
                      | hash _ _ => rfl
                      | internal _ _ spre sl sr =>
                        simp only [Res.bind_ok]
                        cases e3 : bitsJoin pre spre (!bit) with
                        | ok j => rfl
                        | err x => exact absurd e3 (bitsJoin_ne _ _ _ x)
                        | abort => rfl
                        | ub => rfl
                  | err x => exact absurd e4 (storeResolve_ne _ _ _ x)
                  | abort => rfl
                  | ub => rfl
          | err x => exact absurd e2 (getBit_ne _ _ x)
          | abort => rfl
          | ub => rfl
      | err x => exact absurd e (bitsHas_ne _ _ _ x)
      | abort => rfl
      | ub => rfl
    | hash h p =>
      simp only [cTreeRemove, treeRemove]
      cases e : storeResolve s h p with
      | ok r =>
        cases r with
        | none => rfl
        | some rn =>
          simp only [Res.bind_ok, libc_tls, cTreeRemove_eq s key fuel rn d]
          cases catchErr (treeRemove s key fuel rn d) <;> rfl
      | err x => exact absurd e (storeResolve_ne _ _ _ x)
      | abort => rfl
      | ub => rfl

/-- What proving leaves. -/
def proved (c : Caller) (r : Option Proof × Node) : Option Proof × Node × Caller :=
  (r.1, r.2, match r.1 with | some _ => c | none => setErr .ECORRUPTION c)

theorem cTreeProve_eq (E : Env) (s : Store) (key : B32) : ∀ (fuel : Nat) (n : Node) (d k : Nat) (c : Caller),
    cTreeProve true E s key fuel n d k c = treeProve E s key fuel n d k >>= fun r => pure (proved c r)
  | 0, _, _, _, _ => rfl
  | fuel + 1, n, d, k, c => by
    cases n with
    | null => rfl
    | leaf h p kk v vp =>
      simp only [cTreeProve, treeProve]
      cases storeRetrieve s v vp with
      | ok x =>
        cases x with
        | none => rfl
        | some x =>
          simp only [Res.bind_ok]
          by_cases hk : kk = key
          · rw [if_pos hk, if_pos hk]; rfl
          · rw [if_neg hk, if_neg hk]; rfl
      | err x => rfl
      | abort => rfl
      | ub => rfl
    | internal h p pre l r =>
      simp only [cTreeProve, treeProve]
      cases bitsHas pre key.bytes d with
      | ok b =>
        cases b with
        | false =>
          simp only [Res.bind_ok, Bool.not_false, if_true]
          cases nodeHash E.H l with
          | ok x => simp only [Res.bind_ok]; cases nodeHash E.H r <;> rfl
          | err x => rfl
          | abort => rfl
          | ub => rfl
        | true =>
          simp only [Res.bind_ok, Bool.not_true, Bool.false_eq_true, if_false]
          cases getBit key.bytes (d + pre.size) with
          | ok bit =>
            simp only [Res.bind_ok]
            cases nodeHash E.H (side l r (!bit)) with
            | ok x =>
              simp only [Res.bind_ok]
              by_cases hk : k < keyBits
              · simp only [decide_eq_true hk, check_true, Res.bind_ok, libc_tls, cTreeProve_eq E s key fuel]
                cases treeProve E s key fuel (side l r bit) (d + pre.size + 1) (k + 1) with
                | ok y =>
                  obtain ⟨pf, x'⟩ := y
                  cases pf <;> rfl
                | err x => rfl
                | abort => rfl
                | ub => rfl
              · simp only [decide_eq_false hk, check_false, Res.bind_abort]
            | err x => rfl
            | abort => rfl
            | ub => rfl
          | err x => rfl
          | abort => rfl
          | ub => rfl
      | err x => rfl
      | abort => rfl
      | ub => rfl
    | hash h p =>
      simp only [cTreeProve, treeProve]
      cases storeResolve s h p with
      | ok r =>
        cases r with
        | none => rfl
        | some rn =>
          simp only [Res.bind_ok, libc_tls, cTreeProve_eq E s key fuel rn d k]
          cases treeProve E s key fuel rn d k <;> rfl
      | err x => rfl
      | abort => rfl
      | ub => rfl

/-! ### The calls -/

theorem node_cases (t : Tx) : (∃ n, t.node = .ok n) ∨ t.node = .ub := by
  unfold Tx.node; cases t.root with
  | none => exact .inr rfl
  | some n => exact .inl ⟨n, rfl⟩

theorem Store.Backed.same {s s' : Store} (h : s.Backed) (e : SameIo s s') : s'.Backed := by
  intro f hf
  rw [e.1, e.2.2.1] at hf
  rw [e.2.2.2.2]
  exact h f hf

def gotten (c : Caller) : Except Err Bytes → Bool × Caller
  | .ok v => (true, c.gets v)
  | .error e => (false, { setErr e c with size := 0 })

theorem cTxGet_eq {db : Db} (hb : db.store.Backed) (t : Tx) (k : B32) {c : Caller} (hc : c.Room) :
    cTxGet true db t k c = catchErr (txGet db t k) >>= fun r => pure (gotten c r) := by
  unfold cTxGet txGet
  rcases node_cases t with ⟨n, e⟩ | e
  · rw [e]
    simp only [Res.bind_ok, libc_tls, cTreeGet_eq hb k true treeFuel n 0 hc]
    cases treeGet db.store k true treeFuel n 0 <;> rfl
  · rw [e]; rfl

def had (c : Caller) : Except Err Unit → Bool × Caller
  | .ok () => (true, c)
  | .error e => (false, setErr e c)

theorem cTxHas_eq {db : Db} (hb : db.store.Backed) (t : Tx) (k : B32) {c : Caller} (hc : c.Room) :
    cTxHas true db t k c = catchErr (txHas db t k) >>= fun r => pure (had c r) := by
  unfold cTxHas txHas
  rcases node_cases t with ⟨n, e⟩ | e
  · rw [e]
    simp only [Res.bind_ok, libc_tls, cTreeGet_eq hb k false treeFuel n 0 hc]
    cases treeGet db.store k false treeFuel n 0 <;> rfl
  · rw [e]; rfl

theorem cTxRemove_eq (db : Db) (t : Tx) (k : B32) (c : Caller) :
    cTxRemove true db t k c = txRemove db t k >>= fun x => pure (x.1, had c x.2) := by
  unfold cTxRemove txRemove
  rcases node_cases t with ⟨n, e⟩ | e
  · rw [e]
    simp only [Res.bind_ok, libc_tls, cTreeRemove_eq db.store k treeFuel n 0]
    cases treeRemove db.store k treeFuel n 0 <;> rfl
  · rw [e]; rfl

theorem cTxProve_eq (E : Env) (db : Db) (t : Tx) (k : B32) (c : Caller) :
    cTxProve true E db t k c = txProve E db t k >>= fun x => pure (x.1, match x.2 with
      | .ok b => (true, { c with proof := some b, proofLen := b.length })
      | .error e => (false, { setErr e c with proof := none, proofLen := 0 })) := by
  unfold cTxProve txProve
  rcases node_cases t with ⟨n, e⟩ | e
  · rw [e]
    simp only [Res.bind_ok, libc_tls, cTreeProve_eq E db.store k treeFuel n 0 0]
    cases treeProve E db.store k treeFuel n 0 0 with
    | ok y =>
      obtain ⟨pf, n'⟩ := y
      cases pf with
      | none => rfl
      | some pf =>
        simp only [Res.bind_ok, Res.pure_eq, proved]
        cases proofSize pf with
        | ok sz =>
          simp only [Res.bind_ok]
          cases proofWrite pf with
          | ok raw =>
            simp only [Res.bind_ok]
            by_cases hl : raw.length ≠ sz
            · rw [if_pos hl, if_pos hl]; rfl
            · rw [if_neg hl, if_neg hl]
              have hl := Decidable.not_not.1 hl
              subst hl; rfl
          | err x => rfl
          | abort => rfl
          | ub => rfl
        | err x => rfl
        | abort => rfl
        | ub => rfl
    | err x => rfl
    | abort => rfl
    | ub => rfl
  · rw [e]; rfl

/-- Inserting: when nothing changes, the caller's error number says so. -/
theorem cTxInsert_spec (E : Env) (db : Db) (t : Tx) (k : B32) (v : Bytes) (c : Caller) :
    match txInsert E db t k v with
    | .ok (t', .ok ()) => ∃ c', cTxInsert true E db t k v c = .ok (t', true, c') ∧ (c' = c ∨ (t' = t ∧ c' = setErr .ENOUPDATE c))
    | .ok (t', .error e) => cTxInsert true E db t k v c = .ok (t', false, setErr e c)
    | .err e => cTxInsert true E db t k v c = .err e
    | .abort => cTxInsert true E db t k v c = .abort
    | .ub => cTxInsert true E db t k v c = .ub := by
  unfold cTxInsert txInsert
  by_cases hv : v.length > valueSize
  · rw [if_pos hv, if_pos hv]
  · rw [if_neg hv, if_neg hv]
    rcases node_cases t with ⟨n, e⟩ | e
    · rw [e]
      simp only [Res.bind_ok, libc_tls, cTreeInsert_eq E db.store k v treeFuel n 0]
      cases treeInsert E db.store k v treeFuel n 0 with
      | ok n' => exact ⟨c, rfl, .inl rfl⟩
      | err x =>
        cases x with
        | ENOUPDATE => exact ⟨_, rfl, .inr ⟨rfl, rfl⟩⟩
        | _ => rfl
      | abort => rfl
      | ub => rfl
    · rw [e]; rfl

theorem cTxCommit_eq (E : Env) (db : Db) (t : Tx) (c : Caller) :
    cTxCommit true E db t c = txCommit E db t >>= fun x => pure (x.1, x.2.1, had c x.2.2) := by
  unfold cTxCommit txCommit
  rcases node_cases t with ⟨n, e⟩ | e
  · rw [e]
    simp only [Res.bind_ok, libc_tls]
    cases treeWrite E n db.store with
    | ok y =>
      obtain ⟨s, r⟩ := y
      cases r with
      | none => rfl
      | some root =>
        simp only [Res.bind_ok]
        cases storeCommit E s root with
        | ok z => obtain ⟨s', ok⟩ := z; cases ok <;> rfl
        | err x => rfl
        | abort => rfl
        | ub => rfl
    | err x => rfl
    | abort => rfl
    | ub => rfl
  · rw [e]; rfl

def created (c : Caller) : Except Err Tx → Option Tx × Caller
  | .ok t => (some t, c)
  | .error e => (none, setErr e c)

theorem cTxCreate_eq (E : Env) (db : Db) (h : Option B32) (c : Caller) :
    cTxCreate true E db h c = txCreate E db h >>= fun x => pure (x.1, created c x.2) := by
  obtain ⟨st, hh, rv⟩ := db
  unfold cTxCreate txCreate
  cases h with
  | some h =>
    dsimp only
    cases readHistory E st h with
    | ok y => obtain ⟨s, r⟩ := y; cases r <;> rfl
    | err x => rfl
    | abort => rfl
    | ub => rfl
  | none =>
    dsimp only
    cases rv with
    | true =>
      simp only [if_true]
      cases readHistory E st hh with
      | ok y => obtain ⟨s, r⟩ := y; cases r <;> rfl
      | err x => rfl
      | abort => rfl
      | ub => rfl
    | false => rfl

theorem cInject_eq (E : Env) (db : Db) (h : B32) (c : Caller) :
    cInject true E db h c = dbInject E db h >>= fun x => pure (x.1, had c x.2) := by
  unfold cInject dbInject
  cases hasHistory E db.store h with
  | ok y => obtain ⟨s, b⟩ := y; cases b <;> rfl
  | err x => rfl
  | abort => rfl
  | ub => rfl

theorem cTxInject_eq (E : Env) (db : Db) (t : Tx) (h : B32) (c : Caller) :
    cTxInject true E db t h c = txInject E db t h >>= fun x => pure (x.1, x.2.1, had c x.2.2) := by
  unfold cTxInject txInject
  cases readHistory E db.store h with
  | ok y =>
    obtain ⟨s, r⟩ := y
    cases r with
    | none => rfl
    | some n =>
      simp only [Res.bind_ok]
      rcases node_cases t with ⟨n', e⟩ | e <;> rw [e] <;> rfl
  | err x => rfl
  | abort => rfl
  | ub => rfl

theorem cTxRoot_eq (E : Env) (t : Tx) (c : Caller) :
    cTxRoot true E t c = txRoot E t >>= fun x => pure (x.1, { c with hash := x.2.bytes }) := by
  unfold cTxRoot txRoot
  rcases node_cases t with ⟨n, e⟩ | e
  · rw [e]
    simp only [Res.bind_ok, libc_tls]
    cases nodeHash E.H n <;> rfl
  · rw [e]; rfl

theorem cOpen_eq (E : Env) (d : Dir) (rand : B32) (c : Caller) :
    cOpen true E d rand c = dbOpen E d rand >>= fun x => pure (x.1, match x.2 with
      | .ok db => (some db, c)
      | .error e => (none, setErr e c)) := by
  unfold cOpen dbOpen
  cases openStore E d rand with
  | ok y => obtain ⟨d', r⟩ := y; cases r <;> rfl
  | err x => rfl
  | abort => rfl
  | ub => rfl

theorem txCreate_backed {E : Env} {db db' : Db} {h : Option B32} {x : Except Err Tx} (hb : db.store.Backed) (e : txCreate E db h = .ok (db', x)) :
    db'.store.Backed := by
  unfold txCreate at e
  have key : ∀ g, (readHistory E db.store g >>= fun y => match y.2 with
      | some n => pure ({ db with store := y.1 }, Except.ok (⟨some n⟩ : Tx))
      | none => pure ({ db with store := y.1 }, Except.error Err.ENOTFOUND)) = Res.ok (db', x) → db'.store.Backed := by
    intro g e
    obtain ⟨⟨s, r⟩, e1, e2⟩ := Res.bind_eq_ok.1 e
    have hs := hb.same (readHistory_sameIo e1)
    cases r <;> (cases e2; exact hs)
  cases h with
  | some h => exact key h e
  | none =>
    dsimp only at e
    split at e
    · exact key _ e
    · cases e; exact hb

theorem cGet_eq {E : Env} {db : Db} (hb : db.store.Backed) (k : B32) (h : Option B32) {c : Caller} (hc : c.Room) :
    cGet true E db k h c = urkelGet E db k h >>= fun x => pure (x.1, gotten c x.2) := by
  unfold cGet urkelGet
  rw [cTxCreate_eq]
  cases e : txCreate E db h with
  | ok y =>
    obtain ⟨db', r⟩ := y
    cases r with
    | error x => rfl
    | ok t =>
      simp only [Res.bind_ok, Res.pure_eq, created, cTxGet_eq (txCreate_backed hb e) t k hc]
      cases txGet db' t k with
      | ok v => simp only [catchErr, Res.bind_ok]; cases txDestroy t <;> rfl
      | err v => simp only [catchErr, Res.bind_ok]; cases txDestroy t <;> rfl
      | abort => rfl
      | ub => rfl
  | err x => rfl
  | abort => rfl
  | ub => rfl

theorem cHas_eq {E : Env} {db : Db} (hb : db.store.Backed) (k : B32) (h : Option B32) {c : Caller} (hc : c.Room) :
    cHas true E db k h c = urkelHas E db k h >>= fun x => pure (x.1, had c x.2) := by
  unfold cHas urkelHas
  rw [cTxCreate_eq]
  cases e : txCreate E db h with
  | ok y =>
    obtain ⟨db', r⟩ := y
    cases r with
    | error x => rfl
    | ok t =>
      simp only [Res.bind_ok, Res.pure_eq, created, cTxHas_eq (txCreate_backed hb e) t k hc]
      cases txHas db' t k with
      | ok v => simp only [catchErr, Res.bind_ok]; cases txDestroy t <;> rfl
      | err v => simp only [catchErr, Res.bind_ok]; cases txDestroy t <;> rfl
      | abort => rfl
      | ub => rfl
  | err x => rfl
  | abort => rfl
  | ub => rfl

theorem cProve_eq (E : Env) (db : Db) (k : B32) (h : Option B32) (c : Caller) :
    cProve true E db k h c = urkelProve E db k h >>= fun x => pure (x.1, match x.2 with
      | .ok b => (true, { c with proof := some b, proofLen := b.length })
      | .error e => (false, { setErr e c with proof := none, proofLen := 0 })) := by
  unfold cProve urkelProve
  rw [cTxCreate_eq]
  cases e : txCreate E db h with
  | ok y =>
    obtain ⟨db', r⟩ := y
    cases r with
    | error x => rfl
    | ok t =>
      simp only [Res.bind_ok, Res.pure_eq, created, cTxProve_eq]
      cases txProve E db' t k with
      | ok v =>
        obtain ⟨t', r⟩ := v
        simp only [Res.bind_ok]
        cases r <;> (simp only; cases txDestroy t' <;> rfl)
      | err v => rfl
      | abort => rfl
      | ub => rfl
  | err x => rfl
  | abort => rfl
  | ub => rfl

theorem cRemove_eq (E : Env) (db : Db) (k : B32) (c : Caller) :
    cRemove true E db k c = urkelRemove E db k >>= fun x => pure (x.1, had c x.2) := by
  unfold cRemove urkelRemove
  rw [cTxCreate_eq]
  cases e : txCreate E db none with
  | ok y =>
    obtain ⟨db', r⟩ := y
    cases r with
    | error x => rfl
    | ok t =>
      simp only [Res.bind_ok, Res.pure_eq, created, cTxRemove_eq]
      cases txRemove db' t k with
      | ok v =>
        obtain ⟨t', r⟩ := v
        cases r with
        | error x => simp only [Res.bind_ok, had]; cases txDestroy t' <;> rfl
        | ok u =>
          cases u
          simp only [Res.bind_ok, had, cTxCommit_eq, Bool.not_true, Bool.false_eq_true, if_false]
          cases txCommit E db' t' with
          | ok w =>
            obtain ⟨db2, t2, r2⟩ := w
            cases r2 with
            | error x => simp only [Res.bind_ok, Res.pure_eq, had]; cases txDestroy t2 <;> rfl
            | ok u => cases u; simp only [Res.bind_ok, Res.pure_eq, had]; cases txDestroy t2 <;> rfl
          | err v => rfl
          | abort => rfl
          | ub => rfl
      | err v => rfl
      | abort => rfl
      | ub => rfl
  | err x => rfl
  | abort => rfl
  | ub => rfl

theorem cInsert_spec (E : Env) (db : Db) (k : B32) (v : Bytes) (c : Caller) :
    match urkelInsert E db k v with
    | .ok (db', .ok ()) => ∃ c', cInsert true E db k v c = .ok (db', true, c') ∧ (c' = c ∨ c' = setErr .ENOUPDATE c)
    | .ok (db', .error e) => cInsert true E db k v c = .ok (db', false, setErr e c)
    | .err e => cInsert true E db k v c = .err e
    | .abort => cInsert true E db k v c = .abort
    | .ub => cInsert true E db k v c = .ub := by
  unfold cInsert urkelInsert
  rw [cTxCreate_eq]
  cases e : txCreate E db none with
  | ok y =>
    obtain ⟨db', r⟩ := y
    cases r with
    | error x => rfl
    | ok t =>
      have hi := cTxInsert_spec E db' t k v c
      simp only [Res.bind_ok, Res.pure_eq, created]
      cases ei : txInsert E db' t k v with
      | ok w =>
        obtain ⟨t', r⟩ := w
        rw [ei] at hi
        cases r with
        | error x =>
          simp only at hi
          rw [hi]
          simp only [Res.bind_ok]
          cases txDestroy t' <;> rfl
        | ok u =>
          cases u
          obtain ⟨c', hi, hc'⟩ := hi
          rw [hi]
          simp only [Res.bind_ok, cTxCommit_eq, Bool.not_true, Bool.false_eq_true, if_false]
          cases txCommit E db' t' with
          | ok w =>
            obtain ⟨db2, t2, r2⟩ := w
            cases r2 with
            | error x =>
              simp only [Res.bind_ok, Res.pure_eq, had]
              have hs : setErr x c' = setErr x c := by
                rcases hc' with rfl | ⟨_, rfl⟩ <;> rfl
              rw [hs]
              cases txDestroy t2 <;> rfl
            | ok u =>
              cases u
              simp only [Res.bind_ok, Res.pure_eq, had]
              cases txDestroy t2 with
              | ok u => exact ⟨c', rfl, hc'.imp id And.right⟩
              | err x => rfl
              | abort => rfl
              | ub => rfl
          | err v => rfl
          | abort => rfl
          | ub => rfl
      | err v => rw [ei] at hi; simp only at hi; rw [hi]; rfl
      | abort => rw [ei] at hi; simp only at hi; rw [hi]; rfl
      | ub => rw [ei] at hi; simp only at hi; rw [hi]; rfl
  | err x => rfl
  | abort => rfl
  | ub => rfl

/-! ### Iterators -/

theorem cSeekLoop_eq (s : Store) : ∀ (fuel : Nat) (it : Iter) (c : Caller),
    cSeekLoop true s fuel it c = seekLoop s fuel it >>= fun x => pure (x.1, had c x.2)
  | 0, _, _ => rfl
  | fuel + 1, it, c => by
    unfold cSeekLoop seekLoop
    cases it.stack with
    | nil => rfl
    | cons f rest =>
      dsimp only
      cases f.node with
      | null => rfl
      | leaf h p k v vp => rfl
      | internal h p pre l r =>
        dsimp only
        by_cases hc : f.child ≥ 2
        · rw [if_pos hc, if_pos hc]; rfl
        · rw [if_neg hc, if_neg hc]
          generalize iterPush _ _ _ _ = q
          cases q with
          | ok it' => exact cSeekLoop_eq s fuel it' c
          | err x => rfl
          | abort => rfl
          | ub => rfl
      | hash h p =>
        dsimp only
        by_cases hc : f.child ≥ 1
        · rw [if_pos hc, if_pos hc]; rfl
        · rw [if_neg hc, if_neg hc]
          cases storeResolve s h p with
          | ok r =>
            cases r with
            | none => rfl
            | some rn =>
              simp only [Res.bind_ok, libc_tls]
              generalize iterPush _ _ _ _ = q
              cases q with
              | ok it' => exact cSeekLoop_eq s fuel it' c
              | err x => rfl
              | abort => rfl
              | ub => rfl
          | err x => rfl
          | abort => rfl
          | ub => rfl

theorem cIterSeek_eq (s : Store) (it : Iter) (c : Caller) :
    cIterSeek true s it c = iterSeek s it >>= fun x => pure (x.1, had c x.2) := by
  unfold cIterSeek iterSeek
  dsimp only
  by_cases hd : it.done = true
  · rw [if_pos hd, if_pos hd]; rfl
  · rw [if_neg hd, if_neg hd]
    cases it.stack with
    | nil =>
      dsimp only
      generalize iterPush _ _ _ _ = q
      cases q with
      | ok it' => exact cSeekLoop_eq s iterFuel it' c
      | err x => rfl
      | abort => rfl
      | ub => rfl
    | cons f rest =>
      dsimp only
      by_cases hr : rest.isEmpty = true
      · rw [if_pos hr, if_pos hr]; rfl
      · rw [if_neg hr, if_neg hr]; exact cSeekLoop_eq s iterFuel _ c

/-- The key stands at the beginning of the key buffer. -/
def Caller.keyed (c : Caller) (k : B32) : Caller := { c with key := k.bytes ++ c.key.drop 32 }

theorem bufCopy_key {c : Caller} (hc : c.Room) (k : B32) : bufCopy c.key 0 k.bytes = .ok (k.bytes ++ c.key.drop 32) := by
  rw [bufCopy_front (by rw [k.len]; exact hc.2), k.len]

/-- One call of the iterator: the pair, or the error; without room for a value an unreadable value goes unnoticed. -/
theorem cNextLoop_spec {s : Store} (hb : s.Backed) (want : Bool) : ∀ (fuel : Nat) (it : Iter) {c : Caller}, c.Room →
    match nextLoop s fuel it with
    | .ok (it', .ok (k, v)) => cNextLoop true s want fuel it c = .ok (it', true, if want then (c.keyed k).gets v else c.keyed k)
    | .ok (it', .error e) => cNextLoop true s want fuel it c = .ok (it', false, setErr e c) ∨
        (e = .ECORRUPTION ∧ ∃ k, cNextLoop true s want fuel it c = .ok (it', !want, if want then setErr e (c.keyed k) else c.keyed k))
    | .err e => cNextLoop true s want fuel it c = .err e
    | .abort => want = true → cNextLoop true s want fuel it c = .abort
    | .ub => want = true → cNextLoop true s want fuel it c = .ub
  | 0, _, _, _ => fun _ => rfl
  | fuel + 1, it, c, hc => by
    unfold nextLoop cNextLoop
    rw [cIterSeek_eq]
    cases iterSeek s it with
    | err x => rfl
    | abort => exact fun _ => rfl
    | ub => exact fun _ => rfl
    | ok y =>
      obtain ⟨it', r⟩ := y
      cases r with
      | error e => exact .inl rfl
      | ok u =>
        cases u
        simp only [Res.bind_ok, Res.pure_eq, had, Bool.not_true, Bool.false_eq_true, if_false]
        cases hn : it'.node with
        | none => exact cNextLoop_spec hb want fuel it' hc
        | some n =>
          cases n with
          | null => exact cNextLoop_spec hb want fuel it' hc
          | internal _ _ _ _ _ => exact cNextLoop_spec hb want fuel it' hc
          | hash _ _ => exact cNextLoop_spec hb want fuel it' hc
          | leaf h p k v vp =>
            dsimp only
            rw [bufCopy_key hc k]
            have hck : (c.keyed k).Room := ⟨hc.1, by
              show 32 ≤ (k.bytes ++ c.key.drop 32).length
              rw [List.length_append, k.len]; omega⟩
            cases want with
            | true =>
              have e := cRetrieve_eq hb v vp hck
              simp only [Res.bind_ok, if_true]
              rw [show cRetrieve true s v vp { c with key := k.bytes ++ c.key.drop 32 } = _ from e]
              cases e2 : storeRetrieve s v vp with
              | ok x =>
                cases x with
                | none => exact .inr ⟨rfl, k, rfl⟩
                | some x => rfl
              | err x => exact absurd e2 (storeRetrieve_ne _ _ _ x)
              | abort => exact fun _ => rfl
              | ub => exact fun _ => rfl
            | false =>
              simp only [Res.bind_ok]
              cases e2 : storeRetrieve s v vp with
              | ok x =>
                cases x with
                | none => exact .inr ⟨rfl, k, rfl⟩
                | some x => rfl
              | err x => exact absurd e2 (storeRetrieve_ne _ _ _ x)
              | abort => exact fun h => nomatch h
              | ub => exact fun h => nomatch h

end Urkel
