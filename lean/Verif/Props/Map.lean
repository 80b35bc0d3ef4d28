import Verif.Lemmas.Witness
/-
C01-C09: a transaction is a finite map and its root hash is a function of the
contents.
-/
namespace Urkel
open PTree

/-- C01. Insert succeeds for every value of at most 1023 bytes; afterwards the
key reads as the value and every other key reads as before. -/
theorem C01_read_your_writes {E : Env} (hE : EnvOk E) {s : Sys} (hr : Reachable E s) {id : Nat} {tx : Tx}
    (hid : s.txs id = some tx) (k : B32) (v : Bytes) (hv : v.length ≤ 1023) :
    ∃ tx', txInsert E s.db tx k v = .ok (tx', .ok ()) ∧ txGet s.db tx' k = .ok v ∧
      ∀ k', k' ≠ k → txGet s.db tx' k' = txGet s.db tx k' := by
  obtain ⟨hist, t, hd, ht⟩ := hr.tree hE hid
  obtain ⟨tx', e, ht'⟩ := txInsert_ok hd ht k hv
  have hf := (Top.insert ht.top k v).2
  refine ⟨tx', e, ?_, fun k' hk => ?_⟩
  · rw [txGet_ok hd ht', hf]; simp [Contents.set, lookupRes]
  · rw [txGet_ok hd ht', txGet_ok hd ht, hf]; simp [Contents.set, hk]

example : ∃ s tx, Reachable toyEnv s ∧ s.txs 0 = some tx ∧ txGet s.db tx (keyOf 1) = .ok [7] ∧
    txGet s.db tx (keyOf 3) = .err .ENOTFOUND ∧ (List.replicate 1023 (5 : UInt8)).length ≤ 1023 :=
  let ⟨s, tx, a, b, c, _, d, _⟩ := demo; ⟨s, tx, a, b, c, d, by rw [List.length_replicate]; exact Nat.le_refl _⟩

/-- C02. Remove deletes exactly one key, or reports ENOTFOUND and leaves the
transaction untouched. -/
theorem C02_remove {E : Env} (hE : EnvOk E) {s : Sys} (hr : Reachable E s) {id : Nat} {tx : Tx}
    (hid : s.txs id = some tx) (k : B32) :
    (∀ v, txGet s.db tx k = .ok v → ∃ tx', txRemove s.db tx k = .ok (tx', .ok ()) ∧
      txGet s.db tx' k = .err .ENOTFOUND ∧ ∀ k', k' ≠ k → txGet s.db tx' k' = txGet s.db tx k') ∧
    (txGet s.db tx k = .err .ENOTFOUND → txRemove s.db tx k = .ok (tx, .error .ENOTFOUND)) ∧
    ((∃ v, txGet s.db tx k = .ok v) ∨ txGet s.db tx k = .err .ENOTFOUND) := by
  obtain ⟨hist, t, hd, ht⟩ := hr.tree hE hid
  have h := txRemove_ok hd ht k
  rw [txGet_ok hd ht]
  cases hf : t.find k with
  | none =>
    rw [hf] at h
    exact ⟨by simp [lookupRes], fun _ => h, Or.inr rfl⟩
  | some v =>
    rw [hf] at h
    obtain ⟨tx', e, ht'⟩ := h
    have hf' := (Top.remove ht.top hf).2
    refine ⟨fun _ _ => ⟨tx', e, ?_, fun k' hk => ?_⟩, by simp [lookupRes], Or.inl ⟨v, rfl⟩⟩
    · rw [txGet_ok hd ht', hf']; simp [Contents.set, lookupRes]
    · rw [txGet_ok hd ht', txGet_ok hd ht, hf']; simp [Contents.set, hk]

example : ∃ s tx, Reachable toyEnv s ∧ s.txs 0 = some tx ∧ txGet s.db tx (keyOf 1) = .ok [7] ∧
    txGet s.db tx (keyOf 3) = .err .ENOTFOUND :=
  let ⟨s, tx, a, b, c, _, d, _⟩ := demo; ⟨s, tx, a, b, c, d⟩

/-- C03. `has` succeeds exactly when `get` does, and otherwise both report
ENOTFOUND. -/
theorem C03_has_iff_get {E : Env} (hE : EnvOk E) {s : Sys} (hr : Reachable E s) {id : Nat} {tx : Tx}
    (hid : s.txs id = some tx) (k : B32) :
    (txHas s.db tx k = .ok () ∧ ∃ v, txGet s.db tx k = .ok v) ∨
    (txHas s.db tx k = .err .ENOTFOUND ∧ txGet s.db tx k = .err .ENOTFOUND) := by
  obtain ⟨hist, t, hd, ht⟩ := hr.tree hE hid
  rw [txHas_ok hd ht, txGet_ok hd ht]
  cases t.find k with
  | none => exact Or.inr ⟨rfl, rfl⟩
  | some v => exact Or.inl ⟨rfl, v, rfl⟩

example : ∃ s tx, Reachable toyEnv s ∧ s.txs 0 = some tx ∧ txGet s.db tx (keyOf 1) = .ok [7] ∧
    txGet s.db tx (keyOf 3) = .err .ENOTFOUND :=
  let ⟨s, tx, a, b, c, _, d, _⟩ := demo; ⟨s, tx, a, b, c, d⟩

/-- C04. A value is refused with EINVAL, leaving the transaction as it is, exactly
when it is longer than 1023 bytes. -/
theorem C04_oversized {E : Env} (hE : EnvOk E) {s : Sys} (hr : Reachable E s) {id : Nat} {tx : Tx}
    (hid : s.txs id = some tx) (k : B32) (v : Bytes) :
    (1023 < v.length → txInsert E s.db tx k v = .ok (tx, .error .EINVAL)) ∧
    (v.length ≤ 1023 → ∃ tx', txInsert E s.db tx k v = .ok (tx', .ok ())) := by
  refine ⟨txInsert_big, fun hv => ?_⟩
  obtain ⟨tx', e, _⟩ := C01_read_your_writes hE hr hid k v hv
  exact ⟨tx', e⟩

example : ∃ s tx, Reachable toyEnv s ∧ s.txs 0 = some tx ∧ 1023 < (List.replicate 1024 (5 : UInt8)).length :=
  let ⟨s, tx, a, b, _⟩ := demo; ⟨s, tx, a, b, by rw [List.length_replicate]; exact Nat.lt_succ_self _⟩

theorem calls_ok {E : Env} {db : Db} {hist : List PTree} (hd : DInv E db hist) (ops : List TxOp) {tx : Tx} {t : PTree}
    (ht : TxIs E db tx t) :
    ∃ tx' rs t', callsTx E db tx ops = .ok (tx', rs) ∧ TxIs E db tx' t' ∧ MapRun E.H t.find ops rs t'.find := by
  induction ops generalizing tx t with
  | nil => exact ⟨tx, [], t, rfl, ht, rfl⟩
  | cons op ops ih =>
    have one : ∃ tx1 r t1, callTx E db tx op = .ok (tx1, r) ∧ TxIs E db tx1 t1 ∧ MapStep E.H t.find op r t1.find := by
      cases op with
      | get k =>
        obtain ⟨r, e, hr⟩ := lookup_getRet (t := t) (k := k)
        refine ⟨tx, Ret.ofBytes r, t, ?_, ht, hr, rfl⟩
        simp only [callTx, txGet_ok hd ht, e, Res.bind_ok, Res.pure_eq]
      | has k =>
        obtain ⟨r, e, hr⟩ := lookup_hasRet (t := t) (k := k)
        refine ⟨tx, Ret.ofUnit r, t, ?_, ht, hr, rfl⟩
        simp only [callTx, txHas_ok hd ht, e, Res.bind_ok, Res.pure_eq]
      | insert k v =>
        by_cases hv : v.length ≤ 1023
        · obtain ⟨tx', e, ht'⟩ := txInsert_ok hd ht k hv
          refine ⟨tx', .unit, _, ?_, ht', ?_⟩
          · simp only [callTx, e, Res.bind_ok, Res.pure_eq]; rfl
          · simp only [MapStep]; rw [InsertTo, if_pos hv]; exact ⟨rfl, (Top.insert ht.top k v).2⟩
        · refine ⟨tx, .fail .EINVAL, t, ?_, ht, ?_⟩
          · simp only [callTx, txInsert_big (Nat.lt_of_not_le hv), Res.bind_ok, Res.pure_eq]; rfl
          · simp only [MapStep]; rw [InsertTo, if_neg hv]; exact ⟨rfl, rfl⟩
      | remove k =>
        have h := txRemove_ok hd ht k
        cases hf : t.find k with
        | none =>
          rw [hf] at h
          refine ⟨tx, .fail .ENOTFOUND, t, ?_, ht, ?_⟩
          · simp only [callTx, h, Res.bind_ok, Res.pure_eq]; rfl
          · simp only [MapStep]; rw [RemoveTo, hf]; exact ⟨rfl, rfl⟩
        | some v =>
          rw [hf] at h
          obtain ⟨tx', e, ht'⟩ := h
          refine ⟨tx', .unit, _, ?_, ht', ?_⟩
          · simp only [callTx, e, Res.bind_ok, Res.pure_eq]; rfl
          · simp only [MapStep]; rw [RemoveTo, hf]; exact ⟨rfl, (Top.remove ht.top hf).2⟩
      | root =>
        obtain ⟨tx', e, ht'⟩ := txRoot_ok ht
        refine ⟨tx', .hash (t.hash E.H), t, ?_, ht', _, .of_tree ht.top, rfl, rfl⟩
        simp only [callTx, e, Res.bind_ok, Res.pure_eq]
    obtain ⟨tx1, r, t1, e1, ht1, m1⟩ := one
    obtain ⟨tx2, rs, t2, e2, ht2, m2⟩ := ih ht1
    refine ⟨tx2, r :: rs, t2, ?_, ht2, t1.find, m1, m2⟩
    simp only [callsTx, e1, Res.bind_ok, e2, Res.pure_eq]

/-- C05. Any sequence of get, has, insert, remove and root calls on a transaction
returns, and returns what the same calls on an ordinary map return; the map at
the end is what the transaction shows then. -/
theorem C05_finite_map {E : Env} (hE : EnvOk E) {s : Sys} (hr : Reachable E s) {id : Nat} {tx : Tx}
    (hid : s.txs id = some tx) (ops : List TxOp) :
    ∃ tx' rs c c', callsTx E s.db tx ops = .ok (tx', rs) ∧ Shows s.db tx c ∧ Shows s.db tx' c' ∧
      MapRun E.H c ops rs c' := by
  obtain ⟨hist, t, hd, ht⟩ := hr.tree hE hid
  obtain ⟨tx', rs, t', e, ht', m⟩ := calls_ok hd ops ht
  exact ⟨tx', rs, _, _, e, ht.shows hd, ht'.shows hd, m⟩

/-- The map that a transaction shows is determined. -/
theorem Shows.unique {db : Db} {tx : Tx} {c c' : Contents} (h : Shows db tx c) (h' : Shows db tx c') : c = c' :=
  read_inj fun k => by rw [← h k, h' k]

/-- The root hash of a map is determined. -/
theorem IsRoot.unique {H : HashFn} {c : Contents} {h h' : B32} (a : IsRoot H c h) (b : IsRoot H c h') : h = h' := by
  obtain ⟨t, ht, rfl, rfl⟩ := a
  exact ((IsRoot.iff ht).1 b)

/-- The results of a run on a map are determined by the calls. -/
theorem MapRun.unique {H : HashFn} {ops : List TxOp} {c c1 c2 : Contents} {r1 r2 : List Ret} (a : MapRun H c ops r1 c1)
    (b : MapRun H c ops r2 c2) : r1 = r2 ∧ c1 = c2 := by
  induction ops generalizing c r1 r2 with
  | nil =>
    cases r1 with
    | cons => exact a.elim
    | nil => cases r2 with
      | cons => exact b.elim
      | nil => exact ⟨rfl, by rw [show c1 = c from a, show c2 = c from b]⟩
  | cons op ops ih =>
    cases r1 with
    | nil => exact a.elim
    | cons x1 r1 =>
      cases r2 with
      | nil => exact b.elim
      | cons x2 r2 =>
        obtain ⟨d1, s1, m1⟩ := a
        obtain ⟨d2, s2, m2⟩ := b
        have : x1 = x2 ∧ d1 = d2 := by
          cases op with
          | get k => exact ⟨by rw [s1.1, s2.1], by rw [s1.2, s2.2]⟩
          | has k => exact ⟨by rw [s1.1, s2.1], by rw [s1.2, s2.2]⟩
          | insert k v =>
            simp only [MapStep, InsertTo] at s1 s2
            split at s1
            · next h => rw [if_pos h] at s2; exact ⟨by rw [s1.1, s2.1], by rw [s1.2, s2.2]⟩
            · next h => rw [if_neg h] at s2; exact ⟨by rw [s1.1, s2.1], by rw [s1.2, s2.2]⟩
          | remove k =>
            simp only [MapStep, RemoveTo] at s1 s2
            cases hc : c k <;> rw [hc] at s1 s2 <;> exact ⟨by rw [s1.1, s2.1], by rw [s1.2, s2.2]⟩
          | root =>
            obtain ⟨h1, i1, e1, f1⟩ := s1
            obtain ⟨h2, i2, e2, f2⟩ := s2
            exact ⟨by rw [e1, e2, i1.unique i2], by rw [f1, f2]⟩
        obtain ⟨rfl, rfl⟩ := this
        obtain ⟨rfl, rfl⟩ := ih m1 m2
        exact ⟨rfl, rfl⟩

example : ∃ s tx, Reachable toyEnv s ∧ s.txs 0 = some tx ∧ txGet s.db tx (keyOf 1) = .ok [7] ∧
    MapRun toyEnv.H (Contents.ofList [(keyOf 1, [7])]) [.get (keyOf 1), .remove (keyOf 1), .has (keyOf 1)]
      [.bytes [7], .unit, .fail .ENOTFOUND] ((Contents.ofList [(keyOf 1, [7])]).set (keyOf 1) none) := by
  obtain ⟨s, tx, a, b, c, _⟩ := demo
  refine ⟨s, tx, a, b, c, _, ⟨rfl, rfl⟩, _, ?_, _, ⟨rfl, rfl⟩, rfl⟩
  have h : Contents.ofList [(keyOf 1, [7])] (keyOf 1) = some [7] := rfl
  simp only [MapStep, RemoveTo, h, and_self]

/-- C06. Equal contents have equal roots: two transactions, of the same or of
different databases reached by any histories, that read the same for every key
report the same root. -/
theorem C06_history_independence {E₁ E₂ : Env} (hE₁ : EnvOk E₁) (hE₂ : EnvOk E₂) (hH : E₁.H = E₂.H)
    {s₁ s₂ : Sys} (hr₁ : Reachable E₁ s₁) (hr₂ : Reachable E₂ s₂) {id₁ id₂ : Nat} {tx₁ tx₂ : Tx}
    (h₁ : s₁.txs id₁ = some tx₁) (h₂ : s₂.txs id₂ = some tx₂)
    (same : ∀ k, txGet s₁.db tx₁ k = txGet s₂.db tx₂ k) :
    ∃ r tx₁' tx₂', txRoot E₁ tx₁ = .ok (tx₁', r) ∧ txRoot E₂ tx₂ = .ok (tx₂', r) := by
  obtain ⟨_, t, hd, ht⟩ := hr₁.tree hE₁ h₁
  obtain ⟨_, u, hd', hu⟩ := hr₂.tree hE₂ h₂
  have : t = u := find_inj ht.top hu.top (read_inj fun k => by rw [← ht.shows hd, ← hu.shows hd', same])
  subst this
  obtain ⟨tx₁', e₁, _⟩ := txRoot_ok ht
  obtain ⟨tx₂', e₂, _⟩ := txRoot_ok hu
  exact ⟨_, _, _, e₁, by rw [e₂, hH]⟩

/-- C06, empty case: a transaction without keys has the all-zero root. -/
theorem C06_empty_root {E : Env} (hE : EnvOk E) {s : Sys} (hr : Reachable E s) {id : Nat} {tx : Tx}
    (hid : s.txs id = some tx) (empty : ∀ k, txGet s.db tx k = .err .ENOTFOUND) :
    ∃ tx' h, txRoot E tx = .ok (tx', h) ∧ h.bytes = List.replicate 32 0 := by
  obtain ⟨_, t, hd, ht⟩ := hr.tree hE hid
  have : t = .null := find_inj ht.top (Or.inl rfl) (read_inj fun k => by rw [← ht.shows hd, empty]; rfl)
  subst this
  obtain ⟨tx', e, _⟩ := txRoot_ok ht
  exact ⟨tx', _, e, rfl⟩

/-- Two different histories with the same contents. -/
example : ∃ s₁ s₂ tx₁ tx₂, Reachable toyEnv s₁ ∧ Reachable toyEnv s₂ ∧ s₁.txs 0 = some tx₁ ∧ s₂.txs 0 = some tx₂ ∧
    (∀ k, txGet s₁.db tx₁ k = txGet s₂.db tx₂ k) ∧ txGet s₁.db tx₁ (keyOf 1) = .ok [7] := by
  obtain ⟨s₁, tx₁, a₁, b₁, c₁, _⟩ := reach_committed toyEnv_ok rfl [(keyOf 1, [7]), (keyOf 129, [])] (by simp) (by simp)
  obtain ⟨s₂, tx₂, a₂, b₂, c₂, _⟩ := reach_list toyEnv_ok [(keyOf 129, []), (keyOf 1, [8]), (keyOf 1, [7])] (by simp)
  refine ⟨s₁, s₂, tx₁, tx₂, a₁, a₂, b₁, b₂, fun k => ?_, by rw [c₁]; rfl⟩
  rw [c₁, c₂]
  congr 1
  funext k
  simp only [Contents.ofList, List.foldl_cons, List.foldl_nil, Contents.set, Contents.empty]
  by_cases h1 : k = keyOf 1
  · subst h1; simp [show keyOf 1 ≠ keyOf 129 by decide]
  · by_cases h2 : k = keyOf 129 <;> simp [h1, h2, show keyOf 129 ≠ keyOf 1 by decide]

example : ∃ s tx, Reachable toyEnv s ∧ s.txs 0 = some tx ∧ ∀ k, txGet s.db tx k = .err .ENOTFOUND := by
  obtain ⟨s, tx, a, b, c, _⟩ := reach_committed toyEnv_ok rfl [] (by simp) (by simp)
  exact ⟨s, tx, a, b, fun k => by rw [c]; rfl⟩

/-- C07. Equal roots mean equal contents, or the strings hashed for the two trees
contain a collision or a preimage of the zero digest. -/
theorem C07_root_binds {E₁ E₂ : Env} (hE₁ : EnvOk E₁) (hE₂ : EnvOk E₂) (hH : E₁.H = E₂.H)
    {s₁ s₂ : Sys} (hr₁ : Reachable E₁ s₁) (hr₂ : Reachable E₂ s₂) {id₁ id₂ : Nat} {tx₁ tx₂ tx₁' tx₂' : Tx} {r : B32}
    (h₁ : s₁.txs id₁ = some tx₁) (h₂ : s₂.txs id₂ = some tx₂)
    (e₁ : txRoot E₁ tx₁ = .ok (tx₁', r)) (e₂ : txRoot E₂ tx₂ = .ok (tx₂', r)) :
    (∀ k, txGet s₁.db tx₁ k = txGet s₂.db tx₂ k) ∨
    ∃ c₁ c₂, Shows s₁.db tx₁ c₁ ∧ Shows s₂.db tx₂ c₂ ∧ TreesCollide E₁.H c₁ c₂ := by
  obtain ⟨_, t, hd, ht⟩ := hr₁.tree hE₁ h₁
  obtain ⟨_, u, hd', hu⟩ := hr₂.tree hE₂ h₂
  obtain ⟨x, f₁, _⟩ := txRoot_ok ht
  obtain ⟨y, f₂, _⟩ := txRoot_ok hu
  rw [e₁] at f₁
  rw [e₂] at f₂
  cases f₁
  simp only [Res.ok.injEq, Prod.mk.injEq] at f₂
  rw [← hH] at f₂
  rcases hash_inj (H := E₁.H) (S := t.inputs E₁.H ++ u.inputs E₁.H) (p := []) ht.top hu.top
    (fun x h => List.mem_append_left _ h) (fun x h => List.mem_append_right _ h) f₂.2 with hb | rfl
  · exact Or.inr ⟨_, _, ht.shows hd, hu.shows hd', t, u, ht.top, hu.top, rfl, rfl, hb⟩
  · exact Or.inl fun k => by rw [ht.shows hd, hu.shows hd']

/-- Equal roots do occur (same contents, different histories). -/
example : ∃ s₁ s₂ tx₁ tx₂ tx₁' tx₂' r, Reachable toyEnv s₁ ∧ Reachable toyEnv s₂ ∧ s₁.txs 0 = some tx₁ ∧
    s₂.txs 0 = some tx₂ ∧ txRoot toyEnv tx₁ = .ok (tx₁', r) ∧ txRoot toyEnv tx₂ = .ok (tx₂', r) ∧
    txGet s₁.db tx₁ (keyOf 1) = .ok [7] := by
  obtain ⟨s₁, tx₁, a₁, b₁, c₁, _⟩ := reach_committed toyEnv_ok rfl [(keyOf 1, [7])] (by simp) (by simp)
  obtain ⟨s₂, tx₂, a₂, b₂, c₂, _⟩ := reach_list toyEnv_ok [(keyOf 1, [7])] (by simp)
  obtain ⟨r, x, y, e₁, e₂⟩ := C06_history_independence toyEnv_ok toyEnv_ok rfl a₁ a₂ b₁ b₂ (fun k => by rw [c₁, c₂])
  exact ⟨s₁, s₂, tx₁, tx₂, x, y, r, a₁, a₂, b₁, b₂, e₁, e₂, by rw [c₁]; rfl⟩

/-- C08. Inserting a pair that is already there succeeds and changes neither a
read nor the root. -/
theorem C08_reinsert {E : Env} (hE : EnvOk E) {s : Sys} (hr : Reachable E s) {id : Nat} {tx : Tx}
    (hid : s.txs id = some tx) (k : B32) (v : Bytes) (hk : txGet s.db tx k = .ok v) :
    ∃ tx' r a b, txInsert E s.db tx k v = .ok (tx', .ok ()) ∧ (∀ k', txGet s.db tx' k' = txGet s.db tx k') ∧
      txRoot E tx = .ok (a, r) ∧ txRoot E tx' = .ok (b, r) := by
  obtain ⟨hist, t, hd, ht⟩ := hr.tree hE hid
  have hf : t.find k = some v := by
    rw [txGet_ok hd ht] at hk
    cases h : t.find k <;> rw [h] at hk <;> simp [lookupRes] at hk
    rw [hk]
  have hv : v.length ≤ 1023 := (PTree.Top.valsLe_iff ht.top).1 ht.vals k v hf
  obtain ⟨tx', e, ht'⟩ := txInsert_ok hd ht k hv
  have : t.insert k v 0 = t := find_inj (Top.insert ht.top k v).1 ht.top (by
    rw [(Top.insert ht.top k v).2, ← hf, Contents.set_self])
  rw [this] at ht'
  obtain ⟨a, ea, _⟩ := txRoot_ok ht
  obtain ⟨b, eb, _⟩ := txRoot_ok ht'
  exact ⟨tx', _, a, b, e, fun k' => by rw [ht'.shows hd, ht.shows hd], ea, eb⟩

example : ∃ s tx, Reachable toyEnv s ∧ s.txs 0 = some tx ∧ txGet s.db tx (keyOf 1) = .ok [7] :=
  let ⟨s, tx, a, b, c, _⟩ := demo; ⟨s, tx, a, b, c⟩

/-- C09. Inserting an absent key and removing it again restores reads and root. -/
theorem C09_insert_remove {E : Env} (hE : EnvOk E) {s : Sys} (hr : Reachable E s) {id : Nat} {tx : Tx}
    (hid : s.txs id = some tx) (k : B32) (v : Bytes) (hv : v.length ≤ 1023) (hk : txGet s.db tx k = .err .ENOTFOUND) :
    ∃ tx1 tx2 r a b, txInsert E s.db tx k v = .ok (tx1, .ok ()) ∧ txRemove s.db tx1 k = .ok (tx2, .ok ()) ∧
      (∀ k', txGet s.db tx2 k' = txGet s.db tx k') ∧ txRoot E tx = .ok (a, r) ∧ txRoot E tx2 = .ok (b, r) := by
  obtain ⟨hist, t, hd, ht⟩ := hr.tree hE hid
  have hf : t.find k = none := by
    rw [txGet_ok hd ht] at hk
    cases h : t.find k <;> rw [h] at hk <;> simp [lookupRes] at hk
  obtain ⟨tx1, e1, ht1⟩ := txInsert_ok hd ht k hv
  have hi := Top.insert ht.top k v
  have hf1 : (t.insert k v 0).find k = some v := by rw [hi.2]; simp [Contents.set]
  have h2 := txRemove_ok hd ht1 k
  rw [hf1] at h2
  obtain ⟨tx2, e2, ht2⟩ := h2
  have hrm := Top.remove hi.1 hf1
  have : (t.insert k v 0).remove k 0 = t := find_inj hrm.1 ht.top (by
    rw [hrm.2, hi.2]
    funext k'
    simp only [Contents.set]
    split
    · next e => rw [e, hf]
    · rfl)
  rw [this] at ht2
  obtain ⟨a, ea, _⟩ := txRoot_ok ht
  obtain ⟨b, eb, _⟩ := txRoot_ok ht2
  exact ⟨tx1, tx2, _, a, b, e1, e2, fun k' => by rw [ht2.shows hd, ht.shows hd], ea, eb⟩

example : ∃ s tx, Reachable toyEnv s ∧ s.txs 0 = some tx ∧ txGet s.db tx (keyOf 1) = .ok [7] ∧
    txGet s.db tx (keyOf 3) = .err .ENOTFOUND :=
  let ⟨s, tx, a, b, c, _, d, _⟩ := demo; ⟨s, tx, a, b, c, d⟩

end Urkel
