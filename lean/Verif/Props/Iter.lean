import Verif.Lemmas.Iter
import Verif.Lemmas.Order
import Verif.Lemmas.Log
import Verif.Lemmas.Concrete
import Mathlib.Data.List.Nodup
import Mathlib.Data.List.Perm.Subperm
/-
C30–C32: iteration.
-/
namespace Urkel
open PTree

theorem Run.rd {E : Env} (hE : EnvOk E) {s s' : Sys} {ops : List Op} (h : Run E s ops s') {id : Nat}
    (hno : ∀ op ∈ ops, ¬ op.Changes id ∧ op ≠ .commit id) {sp : SpecDb} {hist : List PTree} (hs : Sim E s sp hist) :
    Rd.Le s.db.store.rd s'.db.store.rd ∧ ∃ sp' hist', Sim E s' sp' hist' := by
  induction h generalizing sp hist with
  | nil => exact ⟨Rd.Le.refl _, sp, hist, hs⟩
  | @cons s s1 s2 op ops r ha he _ ih =>
    obtain ⟨sp1, hist1, _, h2⟩ := hs.next hE ha he
    obtain ⟨a, b⟩ := ih (fun op hop => hno op (by simp [hop])) h2
    refine ⟨Rd.Le.trans ?_ a, b⟩
    rw [rd_of hs.db, rd_of h2.db]
    refine Grew.rd (step_grew (fun rand e => ?_) he)
    subst e
    exact (hno (.reopen rand) (by simp)).1 trivial

theorem iterCalls_amid {E : Env} (hE : EnvOk E) {id : Nat} {s : Sys} {ss : List Sys} (ha : Amid E id s ss) {sp : SpecDb}
    {hist : List PTree} (hs : Sim E s sp hist) {it : Iter} {l : List (B32 × Bytes)} {m : Nat}
    (hi : IterAt E.H s.db.store.rd it l m) (hm : m ≤ 256) :
    iterCalls it (ss.map (·.db)) = .ok (listing l ss.length) := by
  induction ha generalizing sp hist it l m with
  | nil => rfl
  | @cons s s1 ops ss hrun hno _ ih =>
    obtain ⟨hle, sp1, hist1, hs1⟩ := hrun.rd hE hno hs
    have hn := iterNext_ok (hi.mono hle)
    simp only [List.map_cons, iterCalls, List.length_cons]
    generalize hx : iterNext s1.db it = x at hn ⊢
    cases hn with
    | abort c => omega
    | stop c d =>
      simp only [Res.bind_ok]
      rw [ih hs1 d (by omega), listing_nil]; rfl
    | pair c d =>
      simp only [Res.bind_ok]
      rw [ih hs1 c (d.1 hm), listing_cons]; rfl

theorem iterCreate_ok {H : HashFn} {rd : Rd} {tx : Tx} {n : Node} {t : PTree} (hn : tx.root = some n) (hr : Repr H rd n t)
    (ht : t.Top) : ∃ it m, iterCreate tx = .ok it ∧ IterAt H rd it t.entries m ∧ m ≤ cost n t ∧ (t ≠ .null → m = need n t) := by
  rcases ht with rfl | hw
  · have : n = .null := hr.null_iff.2 rfl
    subst this
    exact ⟨_, 0, by simp [iterCreate, Tx.node, hn]; rfl, .empty, by omega, fun h => (h rfl).elim⟩
  · exact ⟨_, _, by simp [iterCreate, Tx.node, hn]; rfl, .new hr hw, need_le hr, fun _ => rfl⟩

/-- C30 (partial: as long as no key parts from the others at more than 127 bit
positions, see C31). Iterating over a transaction returns its pairs, each exactly
once, in ascending order of the keys, and then EITEREND for ever, whatever other
calls are made in between. -/
theorem C30_iteration_partial {E : Env} (hE : EnvOk E) {s : Sys} (hr : Reachable E s) {id : Nat} {tx : Tx}
    (hid : s.txs id = some tx) {c : Contents} (hc : Shows s.db tx c) (hsh : Shallow 127 c) :
    ∃ it l, iterCreate tx = .ok it ∧ Lists l c ∧
      ∀ ss, Amid E id s ss → iterCalls it (ss.map (·.db)) = .ok (listing l ss.length) := by
  obtain ⟨sp, hist, hs⟩ := hr.sim hE
  obtain ⟨hist', t, hd, ht⟩ := hr.tree hE hid
  have hf := ht.find_eq hd hc
  have htop := ht.top
  obtain ⟨n, hn, hrep, _, _⟩ := ht
  rw [← rd_of hd] at hrep
  obtain ⟨it, m, e, hi, hm, _⟩ := iterCreate_ok hn hrep htop
  refine ⟨it, t.entries, e, hf ▸ Top.lists htop, fun ss hss => ?_⟩
  refine iterCalls_amid hE hss hs hi ?_
  have h1 := cost_le n t
  have h2 := (Top.shallow_iff htop 127).1 (hf ▸ hsh)
  omega

theorem iterCalls_abort {H : HashFn} {db : Db} {it : Iter} {l : List (B32 × Bytes)} {m : Nat}
    (hi : IterAt H db.store.rd it l m) (hm : 256 < m) : ∃ n, iterCalls it (List.replicate n db) = .abort := by
  induction l generalizing it m with
  | nil =>
    have hn := iterNext_ok hi
    refine ⟨1, ?_⟩
    simp only [List.replicate_one, iterCalls]
    generalize hx : iterNext db it = x at hn ⊢
    cases hn with
    | abort => rfl
    | stop c _ => omega
  | cons p l ih =>
    have hn := iterNext_ok hi
    generalize hx : iterNext db it = x at hn
    cases hn with
    | abort => exact ⟨1, by simp only [List.replicate_one, iterCalls, hx]; rfl⟩
    | pair c d =>
      obtain ⟨n, hn⟩ := ih c (by omega)
      refine ⟨n + 1, ?_⟩
      simp only [List.replicate_succ, iterCalls, hx, Res.bind_ok, hn]; rfl

theorem iterCalls_same {H : HashFn} {db : Db} {it : Iter} {l : List (B32 × Bytes)} {m : Nat}
    (hi : IterAt H db.store.rd it l m) (hm : m ≤ 256) (n : Nat) : iterCalls it (List.replicate n db) = .ok (listing l n) := by
  induction n generalizing it l m with
  | zero => rfl
  | succ n ih =>
    have hn := iterNext_ok hi
    simp only [List.replicate_succ, iterCalls]
    generalize hx : iterNext db it = x at hn ⊢
    cases hn with
    | abort c => omega
    | stop c d =>
      simp only [Res.bind_ok]
      rw [ih d (by omega), listing_nil]; rfl
    | pair c d =>
      simp only [Res.bind_ok]
      rw [ih c (d.1 hm), listing_cons]; rfl

/-- A transaction just created stands for a stored tree. -/
theorem txCreate_root {E : Env} (hE : EnvOk E) {db db' : Db} {hist : List PTree} (hd : DInv E db hist) {h : Option B32} {tx : Tx}
    (e : txCreate E db h = .ok (db', .ok tx)) : DInv E db' hist ∧ ∃ n t, tx.root = some n ∧ RootIs E.H (vrd db'.store.files) n t ∧ t.Top := by
  obtain ⟨db1, r1, e1, hd1, _, _⟩ := txCreate_ok hE hd h
  rw [e] at e1
  cases e1
  refine ⟨hd1, ?_⟩
  have look : ∀ h' s' n, readHistory E db.store h' = .ok (s', some n) →
      ∃ t, RootIs E.H (vrd s'.files) n t ∧ t.Top := by
    intro h' s' n e
    obtain ⟨s1, r, e1, i, sd, f, g⟩ := readHistory_ok hE h' hd.inv
    rw [e] at e1
    cases e1
    obtain ⟨t, ht, _, hr⟩ := f n rfl
    exact ⟨t, by rw [sd.files]; exact hr, (RootIs.tx hd.inv hr ht).1⟩
  have pick : ∀ h', (do
      let (s, r) ← readHistory E db.store h'
      match r with
      | some n => pure ({ db with store := s }, .ok ⟨some n⟩)
      | none => pure ({ db with store := s }, .error .ENOTFOUND) : Res (Db × Except Err Tx)) = .ok (db', .ok tx) →
      ∃ n t, tx.root = some n ∧ RootIs E.H (vrd db'.store.files) n t ∧ t.Top := by
    intro h' e
    obtain ⟨⟨s', r⟩, e1, e⟩ := Res.bind_eq_ok.1 e
    cases r with
    | none => cases e
    | some n =>
      cases e
      obtain ⟨t, a, b⟩ := look _ _ _ e1
      exact ⟨n, t, rfl, a, b⟩
  cases h with
  | some h => exact pick h e
  | none =>
    simp only [txCreate] at e
    split at e
    · exact pick _ e
    · cases e
      exact ⟨_, _, rfl, hd.inv.root, (RootIs.tx hd.inv hd.inv.root (SInv.head_mem hist)).1⟩

/-- C31 (what holds instead). Iterating over a snapshot aborts the process exactly
when some key parts from the other keys at more than 127 bit positions. -/
theorem C31_stack_limit {E : Env} (hE : EnvOk E) {s : Sys} (hr : Reachable E s) {h : Option B32} {db' : Db} {tx : Tx}
    (e : txCreate E s.db h = .ok (db', .ok tx)) {c : Contents} (hc : Shows db' tx c) :
    ∃ it, iterCreate tx = .ok it ∧ ((∃ n, iterCalls it (List.replicate n db') = .abort) ↔ ¬ Shallow 127 c) := by
  obtain ⟨sp, hist, hs⟩ := hr.sim hE
  obtain ⟨hd, n, t, hn, hroot, htop⟩ := txCreate_root hE hs.db e
  have hrep := hroot.repr
  rw [← rd_of hd] at hrep
  obtain ⟨it, m, e1, hi, hm1, hm⟩ := iterCreate_ok hn hrep htop
  have hf : t.find = c := by
    obtain ⟨db1, r1, e2, hd1, _, h3⟩ := txCreate_ok hE hs.db h
    rw [e] at e2
    cases e2
    refine read_inj fun k => ?_
    rw [← hc k]
    simp only [txGet, Tx.node, hn, Res.bind_ok]
    have := treeGet_ok k true treeFuel hrep (p := []) htop List.nil_prefix (Top.cost_le htop n)
    rw [show ([] : List Bool).length = 0 from rfl] at this
    rw [this, ← lookup_read]
  refine ⟨it, e1, ?_⟩
  rw [← hf, Top.shallow_iff htop]
  have key : m ≤ 256 ↔ t.height ≤ 127 := by
    rcases htop with rfl | hw
    · have : n = .null := hrep.null_iff.2 rfl
      subst this
      simp only [cost, height, Node.isHash, Bool.false_eq_true, if_false] at hm1 ⊢; omega
    · have hne : t ≠ .null := by rintro rfl; exact hw
      rcases hroot with ⟨h, _⟩ | ⟨p, rfl, _⟩
      · exact (hne h).elim
      · rw [hm hne]; simp only [need, diskNeed_eq]; omega
  constructor
  · rintro ⟨k, hk⟩ hh
    rw [iterCalls_same hi (key.2 hh)] at hk
    cases hk
  · intro hh
    exact iterCalls_abort hi (by omega)

/-! ### A tree too deep for the stack -/

/-- The key with only bit `i` set. -/
def bitKey (i : Nat) : B32 :=
  ⟨pack ((List.replicate 256 false).set i true), by rw [length_pack, List.length_set, List.length_replicate]⟩

theorem bitKey_bits (i : Nat) : (bitKey i).bits = (List.replicate 256 false).set i true := by
  unfold B32.bits bitKey
  rw [bitsOf_pack, List.length_set, List.length_replicate]
  exact List.append_nil _

theorem zero_bits : B32.zero.bits = List.replicate 256 false := by
  unfold B32.bits B32.zero
  rw [bitsOf_zeros]

theorem bitKey_part {i : Nat} (h : i < 256) : PartAt B32.zero (bitKey i) i := by
  refine ⟨h, ?_, ?_⟩
  · rw [zero_bits, bitKey_bits, List.take_set_of_le (by omega)]
  · rw [zero_bits, bitKey_bits, List.getElem?_set_self (by rw [List.length_replicate]; exact h), List.getElem?_replicate, if_pos h]
    exact fun e => (nomatch e)

/-- The zero key and 128 keys with one bit set. -/
def deepList : List (B32 × Bytes) := (B32.zero, []) :: (List.range 128).map (fun i => (bitKey i, []))

theorem ofList_mem {l : List (B32 × Bytes)} {k : B32} (h : k ∈ l.map (·.1)) : Contents.ofList l k ≠ none := by
  induction l using snocInd with
  | nil => simp at h
  | append_singleton l p ih =>
    simp only [Contents.ofList, List.foldl_append, List.foldl_cons, List.foldl_nil, Contents.set]
    split
    · simp
    · next hne =>
      refine ih ?_
      simp only [List.map_append, List.mem_append, List.map_cons, List.map_nil, List.mem_singleton] at h
      exact h.resolve_right hne

theorem deep_not_shallow : ¬ Shallow 127 (Contents.ofList deepList) := by
  intro h
  have := h B32.zero (ofList_mem (by simp [deepList])) (List.range 128) List.nodup_range ?_
  · simp at this
  · intro d hd
    rw [List.mem_range] at hd
    refine ⟨bitKey d, ofList_mem ?_, bitKey_part (by omega)⟩
    simp only [deepList, List.map_cons, List.map_map, List.mem_cons, List.mem_map, List.mem_range]
    exact Or.inr ⟨d, hd, rfl⟩

/-- C31 is false: with the library's limits there is a reachable database (129
short keys were inserted and committed) in which iterating over the current
snapshot aborts the process. -/
theorem C31_no_abort_false {E : Env} (hE : EnvOk E) (hcfg : E.cfg = realCfg) :
    ∃ s db' tx it n, Reachable E s ∧ txCreate E s.db none = .ok (db', .ok tx) ∧ iterCreate tx = .ok it ∧
      iterCalls it (List.replicate n db') = .abort := by
  obtain ⟨s, db', tx, hr, e, hsh⟩ := reach_snapshot hE hcfg deepList (by
    intro p hp
    simp only [deepList, List.mem_cons, List.mem_map] at hp
    rcases hp with rfl | ⟨_, _, rfl⟩ <;> simp) (by simp [deepList])
  obtain ⟨it, e1, h⟩ := C31_stack_limit hE hr e hsh
  obtain ⟨n, hn⟩ := h.2 deep_not_shallow
  exact ⟨s, db', tx, it, n, hr, e, e1, hn⟩

/-- C32. After EITEREND, every later call returns EITEREND, whatever iterator and
database it is called on. -/
theorem C32_sticky {db : Db} {it it' : Iter} (h : iterNext db it = .ok (it', .error .EITEREND)) (dbs : List Db) :
    iterCalls it' dbs = .ok (List.replicate dbs.length (.error .EITEREND)) := by
  have seekEnd : ∀ (s : Store) (fuel : Nat) (a b : Iter), seekLoop s fuel a ≠ .ok (b, .error .EITEREND) := by
    intro s fuel
    induction fuel with
    | zero => intro a b e; simp [seekLoop] at e
    | succ fuel ih =>
      intro a b e
      rw [seekLoop] at e
      split at e
      · cases e
      · split at e
        · cases e
        · split at e
          · cases e
          · obtain ⟨x, _, e⟩ := Res.bind_eq_ok.1 e
            exact ih _ _ e
        · cases e
        · split at e
          · cases e
          · obtain ⟨x, _, e⟩ := Res.bind_eq_ok.1 e
            cases x with
            | none => cases e
            | some x =>
              obtain ⟨x, _, e⟩ := Res.bind_eq_ok.1 e
              exact ih _ _ e
  have seekDone : ∀ (s : Store) (a b : Iter), iterSeek s a = .ok (b, .error .EITEREND) → b.done = true ∧ b.node = none := by
    intro s a b e
    rw [iterSeek] at e
    simp only at e
    split at e
    · next hd => cases e; exact ⟨hd, rfl⟩
    · split at e
      · obtain ⟨x, _, e⟩ := Res.bind_eq_ok.1 e
        exact (seekEnd _ _ _ _ e).elim
      · split at e
        · cases e; exact ⟨rfl, rfl⟩
        · exact (seekEnd _ _ _ _ e).elim
  have main : ∀ (s : Store) (fuel : Nat) (a b : Iter), nextLoop s fuel a = .ok (b, .error .EITEREND) → b.done = true ∧ b.node = none := by
    intro s fuel
    induction fuel with
    | zero => intro a b e; simp [nextLoop] at e
    | succ fuel ih =>
      intro a b e
      rw [nextLoop] at e
      obtain ⟨⟨x, r⟩, e1, e⟩ := Res.bind_eq_ok.1 e
      cases r with
      | error er => cases e; exact seekDone _ _ _ e1
      | ok u =>
        simp only at e
        split at e
        · obtain ⟨y, _, e⟩ := Res.bind_eq_ok.1 e
          cases y <;> cases e
        · exact ih _ _ e
  obtain ⟨h1, h2⟩ := main _ _ _ _ h
  have again : ∀ db, iterNext db it' = .ok (it', .error .EITEREND) := by
    intro db
    obtain ⟨ro, nd, st, dn⟩ := it'
    cases h1; cases h2
    rfl
  clear h
  induction dbs with
  | nil => rfl
  | cons db dbs ih => simp only [iterCalls, again, Res.bind_ok, ih, Res.pure_eq, List.length_cons, List.replicate_succ]

/-! ### Examples -/

/-- A map of `n + 1` keys is shallow: keys part at most at `n` positions. -/
theorem shallow_of_keys {c : Contents} {ks : List B32} {n : Nat} (h : ∀ k, c k ≠ none → k ∈ ks) (hn : ks.length ≤ n + 1) :
    Shallow n c := by
  intro k hk ds hnd hds
  obtain ⟨f, hf⟩ : ∃ f : Nat → B32, ∀ d ∈ ds, c (f d) ≠ none ∧ PartAt k (f d) d := by
    have : ∀ d, ∃ k', d ∈ ds → c k' ≠ none ∧ PartAt k k' d := by
      intro d
      by_cases hd : d ∈ ds
      · obtain ⟨k', h'⟩ := hds d hd; exact ⟨k', fun _ => h'⟩
      · exact ⟨k, fun h => (hd h).elim⟩
    exact ⟨fun d => (this d).choose, fun d hd => (this d).choose_spec hd⟩
  have inj : ∀ a ∈ ds, ∀ b ∈ ds, f a = f b → a = b := by
    intro a ha b hb e
    obtain ⟨_, h1⟩ := hf a ha
    obtain ⟨_, h2⟩ := hf b hb
    rw [e] at h1
    rcases Nat.lt_trichotomy a b with c | c | c
    · exfalso
      apply h1.2.2
      have := congrArg (fun l : List Bool => l[a]?) h2.2.1
      simpa only [List.getElem?_take_of_lt c] using this
    · exact c
    · exfalso
      apply h2.2.2
      have := congrArg (fun l : List Bool => l[b]?) h1.2.1
      simpa only [List.getElem?_take_of_lt c] using this
  have hnd' : (ds.map f).Nodup := List.Nodup.map_on inj hnd
  have hsub : ds.map f ⊆ ks.erase k := by
    intro x hx
    obtain ⟨d, hd, rfl⟩ := List.mem_map.1 hx
    obtain ⟨h1, h2⟩ := hf d hd
    refine (List.mem_erase_of_ne ?_).2 (h _ h1)
    intro e
    rw [e] at h2
    exact h2.2.2 rfl
  have := (List.subperm_of_subset hnd' hsub).length_le
  rw [List.length_map, List.length_erase_of_mem (h k hk)] at this
  omega

/-- The hypotheses of C30 are met by a committed database of three keys. -/
example : ∃ s tx, Reachable toyEnv s ∧ s.txs 0 = some tx ∧
    Shows s.db tx (Contents.ofList [(keyOf 1, [7]), (keyOf 2, []), (keyOf 129, [9])]) ∧
    Shallow 127 (Contents.ofList [(keyOf 1, [7]), (keyOf 2, []), (keyOf 129, [9])]) := by
  obtain ⟨s, tx, h1, h2, h3, _⟩ := reach_committed toyEnv_ok rfl [(keyOf 1, [7]), (keyOf 2, []), (keyOf 129, [9])]
    (by intro p hp; simp at hp; rcases hp with rfl | rfl | rfl <;> simp) (by simp)
  exact ⟨s, tx, h1, h2, h3, shallow_of_keys ofList_keys (by simp)⟩

/-- C31 in the toy environment. -/
example : ∃ s db' tx it n, Reachable toyEnv s ∧ txCreate toyEnv s.db none = .ok (db', .ok tx) ∧ iterCreate tx = .ok it ∧
    iterCalls it (List.replicate n db') = .abort := C31_no_abort_false toyEnv_ok rfl

/-- C32: an iterator on an empty transaction ends at once. -/
example (db : Db) : iterNext db ⟨.null, none, [], false⟩ = .ok (⟨.null, none, [], true⟩, .error .EITEREND) := rfl

end Urkel
