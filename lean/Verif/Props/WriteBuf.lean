import Verif.Lemmas.FlushBound
import Verif.Lemmas.Concrete
import Verif.Props.Failed
/-
C65: a commit holds a bounded amount of data in memory and writes it in batches.
-/
namespace Urkel

theorem Slabbed.straight {E : Env} {s : Store} (h : Slabbed E s s.files) :
    Straight E s ∧ s.slab.data = [] ∧ s.index = s.files.length := by
  obtain ⟨c0, cs, hi, hv⟩ := h
  obtain ⟨i, l, e, hidx, _⟩ := hi.sok.files_snoc
  rw [vfOf_snoc e hidx, e] at hv
  have hcs : cs = [] := by
    have := congrArg List.length hv
    simp at this
    exact this
  subst hcs
  have hc0 : c0 = [] := by
    rw [List.append_nil] at hv
    have := (List.append_inj' hv rfl).2
    simpa using this
  subst hc0
  have hd : s.slab.data = [] := by rw [hi.data]; rfl
  have ho : s.slab.offsets = [] ∧ s.slab.dataOff = 0 := by
    have := hi.offs
    have h1 : s.slab.offsets.length = 0 := by
      have := congrArg List.length this
      simp at this; simp [this]
    have h2 := List.length_eq_zero_iff.1 h1
    rw [h2] at this
    exact ⟨h2, by simpa using this⟩
  have hp : s.slab.filePos = s.curSize := by rw [hi.fpos]; rfl
  have hf := hi.fit
  refine ⟨⟨ho.1, hi.start, by rw [ho.2, hd]; rfl, by rw [hp, hd]; rfl, ?_⟩, hd, by rw [e, ← hidx]; simp⟩
  rw [hp]; exact hf

/-- The commit as a whole. -/
theorem storeCommit_batch {E : Env} (hE : EnvOk E) {s s' : Store} {root : Node} {ok : Bool} (hs : s.slab.data.length < E.cfg.writeBuf)
    (e : storeCommit E s root = .ok (s', ok)) :
    s'.slab.data.length ≤ E.cfg.writeBuf + 1062 ∧ s.slab.fileIndex ≤ s'.slab.fileIndex ∧
      ∃ evs, s'.io = evs ++ s.io ∧ (∀ j x, IoEv.append j x ∈ evs → x.length ≤ E.cfg.writeBuf + 1062) ∧
      (ok = true → s'.slab.fileIndex = s.slab.fileIndex → Straight E s → s'.index = s.index ∧
        ∃ last : Bytes, last ≠ [] ∧ last.length ≤ E.cfg.writeBuf + 74 ∧
          evs = (if E.cfg.fsync then [IoEv.sync s.index] else []) ++ [.append s.index last]) := by
  unfold storeCommit at e
  obtain ⟨⟨s1, st⟩, e1, e⟩ := Res.bind_eq_ok.1 e
  obtain ⟨b1, l1, n1⟩ := batch_meta (W := E.cfg.writeBuf) (U := E.cfg.writeBuf + 1062) hE e1
  obtain ⟨⟨s2, ok2⟩, e2, e⟩ := Res.bind_eq_ok.1 e
  unfold flushSync at e2
  obtain ⟨⟨s3, ok3⟩, e3, e2⟩ := Res.bind_eq_ok.1 e2
  obtain ⟨h1, h2, evs, h3, h4, h5⟩ := storeFlush_bound e3
  obtain ⟨m1, evs1, i1, _, f1⟩ := b1
  have i1' : s1.io = s.io := by
    unfold storeWriteMeta at e1
    obtain ⟨rp, _, e1⟩ := Res.bind_eq_ok.1 e1
    obtain ⟨rn, _, e1⟩ := Res.bind_eq_ok.1 e1
    dsimp only at e1
    obtain ⟨sl1, _, e1⟩ := Res.bind_eq_ok.1 e1
    obtain ⟨sl2, _, e1⟩ := Res.bind_eq_ok.1 e1
    cases e1; rfl
  have h4' : ∀ j x, IoEv.append j x ∈ evs → x.length ≤ E.cfg.writeBuf + 1062 := fun j x hx => by
    have := h4 j x hx; omega
  have l3 : s3.slab.data.length ≤ E.cfg.writeBuf + 1062 := by
    rw [h2]; split
    · exact Nat.zero_le _
    · omega
  -- the sync
  have sync : s2.slab = s3.slab ∧ s2.index = s3.index ∧ ∃ ev2, s2.io = ev2 ++ s3.io ∧ (∀ j x, IoEv.append j x ∉ ev2) ∧
      (ok2 = true → ok3 = true ∧ ev2 = if E.cfg.fsync then [IoEv.sync s3.index] else []) := by
    cases ok3 with
    | false => cases e2; exact ⟨rfl, rfl, [], rfl, by simp, fun h => (nomatch h)⟩
    | true =>
      have e2' : commitSync E s3 = (s2, ok2) := by
        simp only [↓reduceIte, Res.pure_eq, Res.ok.injEq] at e2
        exact e2
      unfold commitSync at e2'
      split at e2'
      · next hf =>
        split at e2'
        · cases e2'; exact ⟨rfl, rfl, [], rfl, by simp, fun h => (nomatch h)⟩
        · cases e2'
          exact ⟨rfl, rfl, [.sync s3.index], rfl, by simp, fun _ => ⟨rfl, by rw [if_pos hf]⟩⟩
      · next hf => cases e2'; exact ⟨rfl, rfl, [], rfl, by simp, fun _ => ⟨rfl, by rw [if_neg hf]⟩⟩
  obtain ⟨g1, g2, ev2, g3, g4, g5⟩ := sync
  have hlast : s'.slab = s2.slab ∧ s'.io = s2.io ∧ s'.index = s2.index ∧ ok = ok2 := by
    cases ok2 with
    | false => cases e; exact ⟨rfl, rfl, rfl, rfl⟩
    | true => cases e; exact ⟨rfl, rfl, rfl, rfl⟩
  obtain ⟨k1, k2, k3, rfl⟩ := hlast
  refine ⟨by rw [k1, g1]; exact l3, by rw [k1, g1, h1]; exact m1, ev2 ++ evs, ?_, ?_, ?_⟩
  · rw [k2, g3, h3, i1', List.append_assoc]
  · intro j x hx
    rcases List.mem_append.1 hx with h | h
    · exact (g4 j x h).elim
    · exact h4' j x h
  · intro hok hfi hst
    rw [k1, g1, h1] at hfi
    obtain ⟨st1, x1, _⟩ := f1 rfl hfi hst
    obtain ⟨ho3, he2⟩ := g5 hok
    obtain ⟨_, x3, y3⟩ := h5 ho3 st1
    refine ⟨by rw [k3, g2, x3, x1], s1.slab.data, n1, by omega, ?_⟩
    rw [he2, y3, if_neg n1, x3, x1]

/-- Both parts of `txCommit`. -/
theorem txCommit_batch {E : Env} (hE : EnvOk E) (hW : 0 < E.cfg.writeBuf) {db db' : Db} {tx tx' : Tx} {n : Node} {r : Except Err Unit}
    (hn : tx.root = some n) (hsm : n.Small) (hs : db.store.slab.data.length < E.cfg.writeBuf) (e : txCommit E db tx = .ok (db', tx', r)) :
    db'.store.slab.data.length ≤ E.cfg.writeBuf + 1062 ∧
      ∃ evs, db'.store.io = evs ++ db.store.io ∧ (∀ j x, IoEv.append j x ∈ evs → x.length ≤ E.cfg.writeBuf + 1062) ∧
      (r = .ok () → db'.store.slab.fileIndex = db.store.slab.fileIndex → Straight E db.store →
        ∃ (mids : List Bytes) (last : Bytes), last ≠ [] ∧ last.length ≤ E.cfg.writeBuf + 74 ∧
          (∀ d ∈ mids, E.cfg.writeBuf ≤ d.length) ∧
          evs = (if E.cfg.fsync then [IoEv.sync db.store.index] else []) ++
            .append db.store.index last :: mids.map (IoEv.append db.store.index)) := by
  unfold txCommit at e
  simp only [Tx.node, hn, Res.bind_ok] at e
  obtain ⟨⟨s1, o⟩, e1, e⟩ := Res.bind_eq_ok.1 e
  obtain ⟨⟨m1, evs1, i1, a1, f1⟩, l1, u1⟩ := treeWrite_batch hW hsm hs e1
  cases o with
  | none => cases e; exact ⟨u1, evs1, i1, a1, fun h => (nomatch h)⟩
  | some root =>
    dsimp only at e
    obtain ⟨⟨s2, ok⟩, e2, e⟩ := Res.bind_eq_ok.1 e
    obtain ⟨u2, m2, evs2, i2, a2, f2⟩ := storeCommit_batch hE (l1 rfl) e2
    have ha : ∀ j x, IoEv.append j x ∈ evs2 ++ evs1 → x.length ≤ E.cfg.writeBuf + 1062 := by
      intro j x hx
      rcases List.mem_append.1 hx with h | h
      · exact a2 j x h
      · exact a1 j x h
    have hi : s2.io = (evs2 ++ evs1) ++ db.store.io := by rw [i2, i1, List.append_assoc]
    cases ok with
    | false => cases e; exact ⟨u2, evs2 ++ evs1, hi, ha, fun h => (nomatch h)⟩
    | true =>
      cases e
      refine ⟨u2, evs2 ++ evs1, hi, ha, fun _ hfi hst => ?_⟩
      have hfi' : s2.slab.fileIndex = db.store.slab.fileIndex := hfi
      obtain ⟨st1, x1, y1⟩ := f1 rfl (by omega) hst
      obtain ⟨x2, last, h1, h2, h3⟩ := f2 rfl (by omega) st1
      have hm : ∃ mids : List Bytes, evs1 = mids.map (IoEv.append db.store.index) ∧ ∀ d ∈ mids, E.cfg.writeBuf ≤ d.length := by
        clear i1 a1 f1 ha hi h3
        induction evs1 with
        | nil => exact ⟨[], rfl, by simp⟩
        | cons ev evs ih =>
          obtain ⟨mids, hm, hl⟩ := ih (fun ev hev => y1 ev (List.mem_cons_of_mem _ hev))
          obtain ⟨d, hd, hw⟩ := y1 ev (List.mem_cons_self ..)
          refine ⟨d :: mids, by rw [hm, hd]; rfl, fun x hx => ?_⟩
          rcases List.mem_cons.1 hx with rfl | hx
          · exact hw
          · exact hl x hx
      obtain ⟨mids, hm, hw⟩ := hm
      refine ⟨mids, last, h1, h2, hw, ?_⟩
      rw [h3, x1, hm]; simp

/-- C65, memory: commit any transaction of any reachable database while the operating
system does anything at all to the writes. Whatever comes of it, every single write is
of at most WRITE_BUFFER + 1062 bytes, and no more than that is still held in memory
when the call returns. -/
theorem C65_bounded {E : Env} (hE : EnvOk E) (hW : 0 < E.cfg.writeBuf) {s : Sys} (h : Reachable E s) {id : Nat} {tx tx' : Tx}
    (hid : s.txs id = some tx) (fs : List (Option Fault)) {db' : Db} {r : Except Err Unit}
    (hc : txCommit E (s.db.under fs) tx = .ok (db', tx', r)) :
    db'.store.slab.data.length ≤ E.cfg.writeBuf + 1062 ∧
      ∃ evs, db'.store.io = evs ++ s.db.store.io ∧ ∀ j d, IoEv.append j d ∈ evs → d.length ≤ E.cfg.writeBuf + 1062 := by
  obtain ⟨hist, t, hd, n, hn, hr, _⟩ := h.tree hE hid
  obtain ⟨_, h0, _⟩ := hd.inv.slab.straight
  have h0' : (s.db.under fs).store.slab.data.length < E.cfg.writeBuf := by
    show s.db.store.slab.data.length < _
    rw [h0]; exact hW
  obtain ⟨h1, evs, h2, h3, _⟩ := txCommit_batch hE hW hn hr.small h0' hc
  exact ⟨h1, evs, h2, h3⟩

/-- C65, batches: a commit that can be written and stays in the current file. The
system calls it makes, newest first, are the sync of the current file (if the library
syncs), one append with the commit record at its end, and before it only appends of at
least WRITE_BUFFER bytes, all to the current file; nothing is left in memory. So a
commit of less than WRITE_BUFFER bytes is a single append. -/
theorem C65_batches {E : Env} (hE : EnvOk E) (hW : 0 < E.cfg.writeBuf) {s : Sys} (h : Reachable E s) {id : Nat} {tx : Tx}
    (hid : s.txs id = some tx) (hcan : CanCommit E s.db tx) :
    ∃ db' tx', txCommit E s.db tx = .ok (db', tx', .ok ()) ∧ db'.store.slab.data = [] ∧
      (db'.store.files.length = s.db.store.files.length →
        ∃ (batches : List Bytes) (last : Bytes), last ≠ [] ∧ last.length ≤ E.cfg.writeBuf + 74 ∧
          (∀ d ∈ batches, E.cfg.writeBuf ≤ d.length ∧ d.length ≤ E.cfg.writeBuf + 1062) ∧
          db'.store.io = (if E.cfg.fsync then [IoEv.sync s.db.store.files.length] else []) ++
            .append s.db.store.files.length last :: batches.map (IoEv.append s.db.store.files.length) ++ s.db.store.io) := by
  obtain ⟨hist, t, hd, ht⟩ := h.tree hE hid
  obtain ⟨hv, hcap⟩ := canCommit_tree hd ht hcan
  obtain ⟨db', tx', e, hd', _, _, _, _⟩ := txCommit_ok hE hd ht hv hcap
  obtain ⟨n, hn, hr, _⟩ := ht
  obtain ⟨hst, h0, hi⟩ := hd.inv.slab.straight
  obtain ⟨_, h0', _⟩ := hd'.inv.slab.straight
  refine ⟨db', tx', e, h0', fun hlen => ?_⟩
  obtain ⟨_, evs, h2, h3, h4⟩ := txCommit_batch hE hW hn hr.small (by rw [h0]; exact hW) e
  obtain ⟨mids, last, k1, k2, k3, k4⟩ := h4 rfl (by rw [hd'.inv.slab.fileIndex, hd.inv.slab.fileIndex, hlen]) hst
  rw [hi] at k4
  refine ⟨mids, last, k1, k2, fun d hd => ⟨k3 d hd, h3 s.db.store.files.length d ?_⟩, ?_⟩
  · rw [k4]
    exact List.mem_append_right _ (List.mem_cons_of_mem _ (List.mem_map_of_mem hd))
  · rw [h2, k4]

/-- The hypotheses of C65 are met, with the real WRITE_BUFFER of 64 MB, by a
transaction that inserts one key; the commit is one append. -/
example : EnvOk toyEnv ∧ toyEnv.cfg.writeBuf = 67108864 ∧ Reachable toyEnv (sys2 (keyOf 1) [7]) ∧
    CanCommit toyEnv (sys2 (keyOf 1) [7]).db (leafTx (keyOf 1) [7]) ∧
    (match txCommit toyEnv (sys2 (keyOf 1) [7]).db (leafTx (keyOf 1) [7]) with
      | .ok (db', _, .ok ()) => db'.store.io.map (fun | .append j d => (j, d.length) | _ => (0, 0))
      | _ => []) = [(1, 114)] :=
  ⟨toyEnv_ok, rfl, (sys2_logged _ _ (by decide)).reachable, sys2_can _ _ (by decide), by decide +kernel⟩

/-! ### The allocation behind the buffer -/

/-- The size of the allocation after a write that makes `needs` bytes necessary
(store.c:195-202). -/
def growCap (cap needs : Nat) : Nat :=
  if cap < needs then
    if cap * 3 / 2 < needs then needs * 3 / 2 else cap * 3 / 2
  else cap

/-- Writes of the given lengths (`some`) and successful flushes (`none`, which keep the
allocation and set `data_len` to 0, store.c:739), from an allocation of `cap` bytes
of which `len` are used. Each write is noted as the offset where `memcpy` starts, the
number of bytes it copies, and the size of the allocation at that moment. -/
def runCap : List (Option Nat) → Nat → Nat → List (Nat × Nat × Nat)
  | [], _, _ => []
  | none :: ops, cap, _ => runCap ops cap 0
  | some n :: ops, cap, len => (len, n, growCap cap (len + n)) :: runCap ops (growCap cap (len + n)) (len + n)

theorem growCap_ge (cap needs : Nat) : needs ≤ growCap cap needs ∧ cap ≤ growCap cap needs ∧
    ∀ B, needs ≤ B → cap ≤ B * 3 / 2 → growCap cap needs ≤ B * 3 / 2 := by
  unfold growCap
  split
  · split
    · exact ⟨by omega, by omega, fun B h1 h2 => by omega⟩
    · exact ⟨by omega, by omega, fun B h1 h2 => by omega⟩
  · exact ⟨by omega, Nat.le_refl _, fun B _ h => h⟩

/-- C65, allocation: for every sequence of writes and flushes, every copy into the
buffer stays inside the allocation, and if the buffer never has to hold more than `B`
bytes then the allocation never exceeds `3/2 * B`. -/
theorem C65_allocation (ops : List (Option Nat)) :
    (∀ at_ n cap, (at_, n, cap) ∈ runCap ops 0 0 → at_ + n ≤ cap) ∧
    ∀ B, (∀ at_ n cap, (at_, n, cap) ∈ runCap ops 0 0 → at_ + n ≤ B) → ∀ at_ n cap, (at_, n, cap) ∈ runCap ops 0 0 → cap ≤ B * 3 / 2 := by
  have aux : ∀ (ops : List (Option Nat)) cap len,
      (∀ at_ n c, (at_, n, c) ∈ runCap ops cap len → at_ + n ≤ c) ∧
      ∀ B, cap ≤ B * 3 / 2 → (∀ at_ n c, (at_, n, c) ∈ runCap ops cap len → at_ + n ≤ B) →
        ∀ at_ n c, (at_, n, c) ∈ runCap ops cap len → c ≤ B * 3 / 2 := by
    intro ops
    induction ops with
    | nil => intro cap len; exact ⟨by simp [runCap], by simp [runCap]⟩
    | cons op ops ih =>
      intro cap len
      cases op with
      | none => exact ih cap 0
      | some m =>
        obtain ⟨g1, g2, g3⟩ := growCap_ge cap (len + m)
        obtain ⟨i1, i2⟩ := ih (growCap cap (len + m)) (len + m)
        constructor
        · intro a n c hm
          rcases List.mem_cons.1 hm with h | h
          · cases h; exact g1
          · exact i1 a n c h
        · intro B hB hall a n c hm
          have hg := g3 B (hall _ _ _ (List.mem_cons_self ..)) hB
          rcases List.mem_cons.1 hm with h | h
          · cases h; exact hg
          · exact i2 B hg (fun a n c h => hall a n c (List.mem_cons_of_mem _ h)) a n c h
  obtain ⟨h1, h2⟩ := aux ops 0 0
  exact ⟨h1, fun B => h2 B (Nat.zero_le _)⟩

/-- Three writes with a flush in between. -/
example : runCap [some 40, some 113, none, some 38] 0 0 = [(0, 40, 60), (40, 113, 229), (0, 38, 229)] := by decide

end Urkel
