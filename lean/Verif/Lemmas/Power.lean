import Verif.Lemmas.Trace
import Verif.Spec.Power
/-
Which bytes have been synced: an invariant of the write path.
-/
namespace Urkel

theorem Holds.ordered {disk : Disk} {s : Store} (h : Holds disk s) : Ordered disk := by
  intro j k f g hjk hf hg hne
  rcases Nat.lt_or_ge (j + 1) s.index with hlt | hge
  · exact h.before j f hf hlt
  · have := h.after k g hg (by omega)
    exact (hne (by rw [this])).elim

theorem Holds.synced {disk : Disk} {s : Store} (h : Holds disk s) (j : Nat) (f : DiskFile) (hf : disk[j]? = some f)
    (hne : j + 1 ≠ s.index) : f.Synced := by
  rcases Nat.lt_or_ge (j + 1) s.index with hlt | hge
  · exact h.before j f hf hlt
  · rw [h.after j f hf (by omega)]; rfl

/-- The system calls made between two states keep the invariant, and the order at every
moment in between. -/
def Keeps (s s' : Store) : Prop :=
  ∃ evs, s'.io = evs ++ s.io ∧ ∀ disk, Holds disk s → Holds (disk.replay evs) s' ∧
    ∀ a e, evs = a ++ e → Ordered (disk.replay e)

theorem replay_append (disk : Disk) (a b : List IoEv) : disk.replay (a ++ b) = (disk.replay b).replay a := by
  unfold Disk.replay; rw [List.foldr_append]

/-- One system call. -/
theorem Keeps.one {s s' : Store} {ev : IoEv} (hio : s'.io = ev :: s.io)
    (h : ∀ disk, Holds disk s → Holds (disk.apply ev) s') : Keeps s s' := by
  refine ⟨[ev], hio, fun disk hd => ⟨h disk hd, fun a e he => ?_⟩⟩
  cases e with
  | nil => exact hd.ordered
  | cons x e =>
    cases a with
    | nil => cases he; exact (h disk hd).ordered
    | cons y a => cases a <;> cases he

theorem Keeps.trans {a b c : Store} (h1 : Keeps a b) (h2 : Keeps b c) : Keeps a c := by
  obtain ⟨e1, i1, k1⟩ := h1
  obtain ⟨e2, i2, k2⟩ := h2
  refine ⟨e2 ++ e1, by rw [i2, i1, List.append_assoc], fun disk h => ?_⟩
  obtain ⟨h1, o1⟩ := k1 _ h
  obtain ⟨h2, o2⟩ := k2 _ h1
  refine ⟨by rw [replay_append]; exact h2, fun x e he => ?_⟩
  rcases List.append_eq_append_iff.1 he with ⟨y, hy, hy'⟩ | ⟨y, hy, hy'⟩
  · exact o1 _ _ hy'
  · subst hy'
    rw [replay_append]; exact o2 _ _ hy

theorem Holds.same {disk : Disk} {a b : Store} (hd : Holds disk a) (h : SameIo a b) : Holds disk b := by
  obtain ⟨h1, h2, h3, h4, h5⟩ := hd
  exact ⟨h1.trans h.1.symm, h.2.2.1.symm ▸ h2, by rw [h.1, h.2.2.1]; exact h3, by rw [h.2.2.1]; exact h4, by rw [h.2.2.1]; exact h5⟩

theorem Keeps.same {a b : Store} (h : SameIo a b) : Keeps a b := by
  refine ⟨[], h.2.1, fun disk hd => ⟨hd.same h, fun x e he => ?_⟩⟩
  have : e = [] := (List.append_eq_nil_iff.1 he.symm).2
  subst this
  exact hd.ordered

theorem map_data_modify {disk : Disk} {i : Nat} {g : DiskFile → DiskFile} {k : Bytes → Bytes}
    (h : ∀ f, (g f).data = k f.data) : (disk.modify i g).map DiskFile.data = (disk.map DiskFile.data).modify i k := by
  apply List.ext_getElem?
  intro j
  simp only [List.getElem?_map, List.getElem?_modify]
  split
  · cases disk[j]? <;> simp [h]
  · cases disk[j]? <;> rfl

/-- Appending to the current file. -/
theorem Keeps.append {s s' : Store} {d : Bytes} (hf : s'.files = appendFile s.files s.index d)
    (hi : s'.index = s.index) (hio : s'.io = .append s.index d :: s.io) : Keeps s s' := by
  refine Keeps.one hio fun disk hd => ?_
  obtain ⟨h1, h2, h3, h4, h5⟩ := hd
  refine ⟨?_, hi.symm ▸ h2, ?_, ?_, ?_⟩
  · rw [hf, ← h1]
    exact map_data_modify (fun _ => rfl)
  · rw [hi, hf]; unfold appendFile; rw [List.length_modify]; exact h3
  · intro j f hj hne
    rw [hi] at hne
    change (List.modify disk _ _)[j]? = _ at hj
    rw [List.getElem?_modify_ne _ _ (by omega)] at hj
    exact h4 j f hj hne
  · intro j f hj hne
    rw [hi] at hne
    change (List.modify disk _ _)[j]? = _ at hj
    rw [List.getElem?_modify_ne _ _ (by omega)] at hj
    exact h5 j f hj hne

theorem Holds.sync {disk : Disk} {s : Store} (hd : Holds disk s) :
    Holds (disk.apply (.sync s.index)) s ∧ ∀ f ∈ disk.apply (.sync s.index), f.Synced := by
  obtain ⟨h1, h2, h3, h4, h5⟩ := id hd
  refine ⟨⟨?_, h2, h3, ?_, ?_⟩, ?_⟩
  · rw [← h1]
    show (disk.modify _ _).map _ = _
    refine (map_data_modify (g := fun f => ⟨f.data, f.data.length⟩) (k := id) (fun _ => rfl)).trans ?_
    rw [List.modify_id]
  · intro j f hj hne
    change (List.modify disk _ _)[j]? = _ at hj
    rw [List.getElem?_modify_ne _ _ (by omega)] at hj
    exact h4 j f hj hne
  · intro j f hj hne
    change (List.modify disk _ _)[j]? = _ at hj
    rw [List.getElem?_modify_ne _ _ (by omega)] at hj
    exact h5 j f hj hne
  · intro f hf
    obtain ⟨j, hj⟩ := List.mem_iff_getElem?.1 hf
    change (List.modify disk _ _)[j]? = _ at hj
    by_cases e : j + 1 = s.index
    · rw [List.getElem?_modify] at hj
      have e' : s.index - 1 = j := by omega
      simp only [e', if_true] at hj
      cases hd : disk[j]? with
      | none => rw [hd] at hj; cases hj
      | some g => rw [hd] at hj; cases hj; rfl
    · rw [List.getElem?_modify_ne _ _ (by omega)] at hj
      exact hd.synced j f hj e

/-- Syncing the current file. -/
theorem Keeps.sync {s s' : Store} (hf : s'.files = s.files)
    (hi : s'.index = s.index) (hio : s'.io = .sync s.index :: s.io) : Keeps s s' := by
  refine Keeps.one hio fun disk hd => ?_
  obtain ⟨h1, h2, h3, h4, h5⟩ := hd.sync.1
  exact ⟨h1.trans hf.symm, hi.symm ▸ h2, by rw [hf, hi]; exact h3, by rw [hi]; exact h4, by rw [hi]; exact h5⟩

/-- Creating the next file. -/
theorem Keeps.create {s s' : Store} (hl : s.files.length = s.index) (hf : s'.files = s.files ++ [[]])
    (hi : s'.index = s.index) (hio : s'.io = .create (s.index + 1) :: s.io) : Keeps s s' := by
  refine Keeps.one hio fun disk hd => ?_
  obtain ⟨h1, h2, h3, h4, h5⟩ := hd
  have hlen : disk.length = s.index := by rw [← hl, ← h1, List.length_map]
  have ha : disk.apply (.create (s.index + 1)) = disk ++ [⟨[], 0⟩] := by
    simp only [Disk.apply, hlen, if_true]
  rw [ha]
  refine ⟨by rw [List.map_append, h1, hf]; rfl, hi.symm ▸ h2, by rw [hi, hf, List.length_append]; omega, ?_, ?_⟩
  · intro j f hj hne
    rw [List.getElem?_append_left (by omega)] at hj
    exact h4 j f hj (by rw [← hi]; exact hne)
  · intro j f hj hne
    rw [List.getElem?_append_right (by omega)] at hj
    have := (List.getElem?_eq_some_iff.1 hj).1
    simp only [List.length_singleton] at this
    have e : j - disk.length = 0 := by omega
    rw [e] at hj; cases hj; rfl

/-- Switching to the next file after syncing the one that is full. -/
theorem Keeps.roll {s s' : Store} (hl : s.index < s.files.length) (hf : s'.files = s.files)
    (hi : s'.index = s.index + 1) (hio : s'.io = .sync s.index :: s.io) : Keeps s s' := by
  refine Keeps.one hio fun disk hd => ?_
  obtain ⟨⟨h1, h2, h3, h4, h5⟩, hall⟩ := hd.sync
  refine ⟨h1.trans hf.symm, by omega, by rw [hi, hf]; exact hl, ?_, ?_⟩
  · intro j f hj _
    exact hall f (List.mem_of_getElem? hj)
  · intro j f hj hne
    exact h5 j f hj (by omega)

theorem Keeps.create_roll {s x s' : Store} (h : s.index ≤ s.files.length)
    (hx : x = if s.files.length ≤ s.index then { s with files := s.files ++ [[]], io := .create (s.index + 1) :: s.io } else s)
    (hf : s'.files = x.files) (hi : s'.index = x.index + 1) (hio : s'.io = .sync x.index :: x.io) : Keeps s s' := by
  split at hx
  · subst hx
    refine (Keeps.create (s' := { s with files := s.files ++ [[]], io := .create (s.index + 1) :: s.io }) (by omega) rfl rfl rfl).trans
      (Keeps.roll ?_ hf hi hio)
    simp only [List.length_append, List.length_singleton]; omega
  · subst hx; exact Keeps.roll (by omega) hf hi hio

theorem keeps_of_le {s s' : Store} (h : s.index ≤ s.files.length → Keeps s s') (hio : ∃ evs, s'.io = evs ++ s.io) : Keeps s s' := by
  by_cases hl : s.index ≤ s.files.length
  · exact h hl
  · obtain ⟨evs, e⟩ := hio
    exact ⟨evs, e, fun _ hd => (hl hd.le).elim⟩

/-- `urkel_store_write`, whatever the operating system does. -/
theorem storeWrite_keeps {E : Env} {s s' : Store} {d : Bytes} {ok : Bool} (e : storeWrite E s d = .ok (s', ok)) :
    Keeps s s' := by
  unfold storeWrite at e
  have wr : ∀ {x : Store}, Keeps s x →
      (if d.length = 0 then Res.ok (x, true)
       else match s.faults.head?.join with
        | some (.writeFail k) => .ok ({ x with files := appendFile x.files x.index (d.take k), io := .append x.index (d.take k) :: x.io }, false)
        | some .mapFail =>
          .ok ({ x with files := appendFile x.files x.index d, curSize := x.curSize + d.length, io := .append x.index d :: x.io }, false)
        | _ =>
          .ok ({ x with files := appendFile x.files x.index d, curSize := x.curSize + d.length, io := .append x.index d :: x.io }, true)) = .ok (s', ok) →
      Keeps s s' := by
    intro x hx e
    split at e
    · cases e; exact hx
    · split at e <;> cases e <;> exact hx.trans (Keeps.append rfl rfl rfl)
  simp only at e
  split at e
  · split at e
    · cases e; exact Keeps.same ⟨rfl, rfl, rfl, rfl, rfl⟩
    · split at e
      · cases e
      · split at e
        · cases e
          split
          · refine keeps_of_le (fun hl => ?_) ⟨[_], rfl⟩
            exact Keeps.create (by omega) rfl rfl rfl
          · exact Keeps.same ⟨rfl, rfl, rfl, rfl, rfl⟩
        · refine wr ?_ e
          refine keeps_of_le (fun hl => ?_) ?_
          · refine Keeps.create_roll hl rfl ?_ ?_ ?_
            · split <;> rfl
            · split <;> rfl
            · split <;> rfl
          · dsimp only
            split
            · exact ⟨[_, _], rfl⟩
            · exact ⟨[_], rfl⟩
  · exact wr (x := { s with faults := s.faults.tail }) (Keeps.same ⟨rfl, rfl, rfl, rfl, rfl⟩) e

theorem commitSync_keeps {E : Env} {s s' : Store} {ok : Bool} (e : commitSync E s = (s', ok)) : Keeps s s' := by
  unfold commitSync at e
  split at e
  · split at e
    · cases e; exact Keeps.same ⟨rfl, rfl, rfl, rfl, rfl⟩
    · cases e; exact Keeps.sync rfl rfl rfl
  · cases e; exact Keeps.same ⟨rfl, rfl, rfl, rfl, rfl⟩

theorem ioRel_keeps (E : Env) : IoRel E Keeps where
  trans := Keeps.trans
  same := Keeps.same
  write := storeWrite_keeps
  sync := commitSync_keeps

/-- As `Keeps`, and in the end everything has been synced. -/
def KeepsAll (s s' : Store) : Prop :=
  ∃ evs, s'.io = evs ++ s.io ∧ ∀ disk, Holds disk s → ∀ f ∈ disk.replay evs, f.Synced

theorem Keeps.all {a b c : Store} (h1 : Keeps a b) (h2 : KeepsAll b c) : KeepsAll a c := by
  obtain ⟨e1, i1, k1⟩ := h1
  obtain ⟨e2, i2, k2⟩ := h2
  refine ⟨e2 ++ e1, by rw [i2, i1, List.append_assoc], fun disk h => ?_⟩
  rw [replay_append]
  exact k2 _ (k1 _ h).1

theorem KeepsAll.same {a b c : Store} (h1 : KeepsAll a b) (h2 : SameIo b c) : KeepsAll a c := by
  obtain ⟨e1, i1, k1⟩ := h1
  exact ⟨e1, h2.2.1.trans i1, k1⟩

theorem commitSync_all {E : Env} (hf : E.cfg.fsync = true) {s s' : Store} (e : commitSync E s = (s', true)) :
    KeepsAll s s' := by
  unfold commitSync at e
  simp only [hf, if_true] at e
  split at e
  · cases e
  · cases e
    exact ⟨[.sync s.index], rfl, fun disk h => h.sync.2⟩

theorem flushSync_all {E : Env} (hf : E.cfg.fsync = true) {s s' : Store} (e : flushSync E s = .ok (s', true)) :
    KeepsAll s s' := by
  unfold flushSync at e
  obtain ⟨⟨s1, r⟩, e1, e⟩ := Res.bind_eq_ok.1 e
  have h1 := storeFlush_rel (ioRel_keeps E) e1
  cases r
  · cases e
  · injection e with e
    exact h1.all (commitSync_all hf (by simpa using e))

theorem storeWriteMeta_sameIo {E : Env} {s s1 : Store} {n : Node} {st : Meta} (e1 : storeWriteMeta E s n = .ok (s1, st)) :
    SameIo s s1 := by
  unfold storeWriteMeta at e1
  obtain ⟨_, _, e1⟩ := Res.bind_eq_ok.1 e1
  obtain ⟨_, _, e1⟩ := Res.bind_eq_ok.1 e1
  obtain ⟨_, _, e1⟩ := Res.bind_eq_ok.1 e1
  obtain ⟨_, _, e1⟩ := Res.bind_eq_ok.1 e1
  cases e1; exact ⟨rfl, rfl, rfl, rfl, rfl⟩

theorem storeCommit_all {E : Env} (hf : E.cfg.fsync = true) {s s' : Store} {n : Node}
    (e : storeCommit E s n = .ok (s', true)) : KeepsAll s s' := by
  unfold storeCommit at e
  obtain ⟨⟨s1, st⟩, e1, e⟩ := Res.bind_eq_ok.1 e
  obtain ⟨⟨s2, b⟩, e2, e⟩ := Res.bind_eq_ok.1 e
  have h1 := Keeps.same (storeWriteMeta_sameIo e1)
  simp only at e
  cases b
  · simp only [Bool.false_eq_true, if_false] at e; cases e
  simp only [if_true] at e
  cases e
  exact (h1.all (flushSync_all hf e2)).same ⟨rfl, rfl, rfl, rfl, rfl⟩

theorem txCommit_all {E : Env} (hf : E.cfg.fsync = true) {db db' : Db} {tx tx' : Tx}
    (e : txCommit E db tx = .ok (db', tx', .ok ())) : KeepsAll db.store db'.store := by
  unfold txCommit at e
  obtain ⟨n, _, e⟩ := Res.bind_eq_ok.1 e
  obtain ⟨⟨s1, r1⟩, e1, e⟩ := Res.bind_eq_ok.1 e
  have h1 := treeWrite_rel (ioRel_keeps E) e1
  cases r1 with
  | none => cases e
  | some root =>
    simp only at e
    obtain ⟨⟨s2, ok⟩, e2, e⟩ := Res.bind_eq_ok.1 e
    simp only at e
    cases ok
    · simp only [Bool.not_false, if_true] at e; cases e
    simp only [Bool.not_true, Bool.false_eq_true, if_false] at e
    cases e
    exact h1.all (storeCommit_all hf e2)

end Urkel
