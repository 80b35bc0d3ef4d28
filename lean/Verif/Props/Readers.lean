import Verif.Model.Readers
import Verif.Props.Handles
import Mathlib.Tactic.ByContra
import Mathlib.Tactic.Tauto
/-
C41: concurrent readers.
-/
namespace Urkel

/-- A thread about to read the given files. -/
def Reader.start (files : List Nat) : Reader := ⟨files, none, []⟩

/-- C41 is false: two threads reading the same file, not yet open, both look it up
before either inserts it; the second insertion aborts the process. The database is in
its second file and both threads read one record of the first. -/
theorem C41_false : ∃ s0, handlesInit 0x7fff 2 [] = .ok s0 ∧
    readersRun 0x7fff s0 [.start [1], .start [1]] [(0, true), (1, true), (0, true), (1, true)] = .abort := by
  obtain ⟨s0, e, _⟩ := handlesInit_ok (maxFiles := 0x7fff) (index := 2) [] (by omega) (by omega)
  refine ⟨s0, e, ?_⟩
  have h : (match handlesInit 0x7fff 2 [] with
    | .ok s0 => decide (readersRun 0x7fff s0 [.start [1], .start [1]] [(0, true), (1, true), (0, true), (1, true)] = .abort)
    | _ => false) = true := by decide +kernel
  rw [e] at h
  simpa using h

theorem fmInsert_free {maxFiles : Nat} {s : Handles} {i : Nat} (f : Nat) (hi : i < maxFiles) (hfree : fmLookup s i = none) :
    ∃ s', fmInsert maxFiles s i f = .ok s' ∧ s'.index = s.index ∧ fmLookup s' i = some f ∧
      (∀ j, j ≠ i → fmLookup s' j = fmLookup s j) ∧ s'.closed = s.closed := by
  obtain ⟨items, eit, hlen, hlook⟩ : ∃ items, fmGrow maxFiles s.items i = .ok items ∧ i < items.length ∧
      ∀ j : Nat, (items[j]?).join = (s.items[j]?).join := by
    rw [fmGrow]
    split
    · next h =>
      refine ⟨_, by rw [check_of (by simpa using hi), Res.bind_ok]; rfl, ?_, lookup_grow _ _⟩
      simp; omega
    · next h => exact ⟨_, rfl, by omega, fun _ => rfl⟩
  have hf : (items[i]?).join = none := (hlook i).trans hfree
  refine ⟨{ s with items := items.set i (some f), size := s.size + 1 }, ?_, rfl, ?_, ?_, rfl⟩
  · rw [fmInsert, eit, Res.bind_ok, hf]; rfl
  · simp only [fmLookup]; rw [lookup_set, if_pos ⟨rfl, hlen⟩]
  · intro j hj
    simp only [fmLookup]
    rw [lookup_set, if_neg (by rintro ⟨h, _⟩; exact hj h.symm), hlook j]

/-- The files a thread has yet to read. -/
def Reader.files (r : Reader) : List Nat := r.todo ++ (r.held.map Prod.fst).toList

/-- What holds in every state of a run from table `s0`. -/
structure ReadersInv (maxFiles : Nat) (s0 s : Handles) (rs : List Reader) : Prop where
  index : s.index = s0.index
  closed : s.closed = s0.closed
  keep : ∀ i f, fmLookup s0 i = some f → fmLookup s i = some f
  apart : ∀ (t u : Nat) (r r' : Reader), rs[t]? = some r → rs[u]? = some r' → t ≠ u → ∀ i, i ∈ r.files → i ∈ r'.files → fmLookup s0 i ≠ none
  held : ∀ (t : Nat) (r : Reader) (i f : Nat), rs[t]? = some r → r.held = some (i, f) → fmLookup s i = none ∧ i < maxFiles
  got : ∀ (t : Nat) (r : Reader) (i f : Nat), rs[t]? = some r → (i, some f) ∈ r.got → fmLookup s i = some f

theorem readersStep_inv {maxFiles : Nat} {s0 s : Handles} {rs : List Reader} (h : ReadersInv maxFiles s0 s rs) (hmax : s0.index + 1 < maxFiles)
    (t : Nat) (opens : Bool) : ∃ s' rs', readersStep maxFiles s rs t opens = .ok (s', rs') ∧ ReadersInv maxFiles s0 s' rs' ∧ rs'.length = rs.length := by
  rw [readersStep]
  cases ht : rs[t]? with
  | none => exact ⟨s, rs, rfl, h, rfl⟩
  | some r =>
    have htl : t < rs.length := by
      by_contra hn
      rw [List.getElem?_eq_none (by omega)] at ht; cases ht
    -- what is in the list of threads after thread `t` moved
    have hset : ∀ (r1 : Reader) (u : Nat) (r' : Reader), (rs.set t r1)[u]? = some r' → (u = t ∧ r' = r1) ∨ (u ≠ t ∧ rs[u]? = some r') := by
      intro r1 u r' hu
      rw [List.getElem?_set] at hu
      by_cases htu : t = u
      · subst htu
        rw [if_pos rfl, if_pos htl] at hu
        exact .inl ⟨rfl, (Option.some.inj hu).symm⟩
      · rw [if_neg htu] at hu
        exact .inr ⟨fun h => htu h.symm, hu⟩
    have hapart : ∀ r1 : Reader, (∀ i, i ∈ r1.files → i ∈ r.files) → ∀ (u v : Nat) (a b : Reader), (rs.set t r1)[u]? = some a → (rs.set t r1)[v]? = some b → u ≠ v →
        ∀ i, i ∈ a.files → i ∈ b.files → fmLookup s0 i ≠ none := by
      intro r1 hsub u v a b hu hv huv i hia hib
      rcases hset r1 u a hu with ⟨rfl, rfl⟩ | ⟨hu', hu2⟩
      · rcases hset a v b hv with ⟨rfl, rfl⟩ | ⟨_, hv⟩
        · exact absurd rfl huv
        · exact h.apart u v r b ht hv huv i (hsub i hia) hib
      · rcases hset r1 v b hv with ⟨rfl, rfl⟩ | ⟨_, hv⟩
        · exact h.apart u v a r hu2 ht huv i hia (hsub i hib)
        · exact h.apart u v a b hu2 hv huv i hia hib
    simp only [readerStep]
    cases hheld : r.held with
    | some p =>
      obtain ⟨i, f⟩ := p
      obtain ⟨hfree, hi⟩ := h.held t r i f ht hheld
      obtain ⟨s', e, hix, hl, hlk, hcl⟩ := fmInsert_free f hi hfree
      refine ⟨s', rs.set t { r with held := none, got := (i, some f) :: r.got }, by simp only; rw [e]; rfl, ⟨?_, ?_, ?_, ?_, ?_, ?_⟩, List.length_set⟩
      · rw [hix]; exact h.index
      · rw [hcl]; exact h.closed
      · intro j g hj
        by_cases hji : j = i
        · subst hji; rw [h.keep _ _ hj] at hfree; cases hfree
        · rw [hlk j hji]; exact h.keep j g hj
      · refine hapart _ ?_
        intro j hj
        simp only [Reader.files, Option.map_none, Option.toList_none, List.append_nil] at hj
        exact List.mem_append.2 (.inl hj)
      · intro u r' j g hu hg
        rcases hset _ u r' hu with ⟨rfl, rfl⟩ | ⟨hut, hu2⟩
        · cases hg
        · obtain ⟨h1, h2⟩ := h.held u r' j g hu2 hg
          refine ⟨?_, h2⟩
          by_cases hji : j = i
          · subst hji
            exfalso
            refine h.apart u t r' r hu2 ht hut j (by simp [Reader.files, hg]) (by simp [Reader.files, hheld]) ?_
            cases h0 : fmLookup s0 j with
            | none => rfl
            | some x => rw [h.keep _ _ h0] at hfree; cases hfree
          · rw [hlk j hji]; exact h1
      · intro u r' j g hu hg
        have hold : fmLookup s j = some g → fmLookup s' j = some g := by
          intro hs
          by_cases hji : j = i
          · subst hji; rw [hs] at hfree; cases hfree
          · rw [hlk j hji]; exact hs
        rcases hset _ u r' hu with ⟨rfl, rfl⟩ | ⟨hut, hu⟩
        · rcases List.mem_cons.1 hg with hg | hg
          · cases hg; exact hl
          · exact hold (h.got u r j g ht hg)
        · exact hold (h.got u r' j g hu hg)
    | none =>
      cases htodo : r.todo with
      | nil =>
        refine ⟨s, rs.set t r, by simp only; rfl, ?_, List.length_set⟩
        have : rs.set t r = rs := by
          apply List.ext_getElem?
          intro u
          rw [List.getElem?_set]
          by_cases htu : t = u
          · subst htu; rw [if_pos rfl, if_pos htl, ht]
          · rw [if_neg htu]
        rw [this]; exact h
      | cons i todo =>
        -- a finished read that leaves the table as it is
        have hfin : ∀ o, (∀ f, o = some f → fmLookup s i = some f) →
            ReadersInv maxFiles s0 s (rs.set t { r with todo := todo, got := (i, o) :: r.got }) := by
          intro o ho
          refine ⟨h.index, h.closed, h.keep, ?_, ?_, ?_⟩
          · refine hapart _ ?_
            intro j hj
            simp only [Reader.files, hheld, Option.map_none, Option.toList_none, List.append_nil] at hj ⊢
            rw [htodo]; exact List.mem_cons_of_mem _ hj
          · intro u r' j g hu hg
            rcases hset _ u r' hu with ⟨rfl, rfl⟩ | ⟨hut, hu⟩
            · simp only at hg; rw [hheld] at hg; cases hg
            · exact h.held u r' j g hu hg
          · intro u r' j g hu hg
            rcases hset _ u r' hu with ⟨rfl, rfl⟩ | ⟨hut, hu⟩
            · rcases List.mem_cons.1 hg with hg | hg
              · obtain ⟨rfl, h2⟩ := Prod.mk.inj hg
                exact ho g h2.symm
              · exact h.got u r j g ht hg
            · exact h.got u r' j g hu hg
        simp only
        split
        · exact ⟨s, _, by rw [Res.bind_ok]; rfl, by have := hfin none (fun _ h => (nomatch h)); rwa [hheld] at this, List.length_set⟩
        next hrange =>
        cases hlook : fmLookup s i with
        | some f => exact ⟨s, _, by rw [Res.bind_ok]; rfl, by have := hfin (some f) (fun g h => by rw [← h]; exact hlook); rwa [hheld] at this, List.length_set⟩
        | none =>
          simp only
          cases opens with
          | false => exact ⟨s, _, by rfl, by have := hfin none (fun _ h => (nomatch h)); rwa [hheld] at this, List.length_set⟩
          | true =>
            refine ⟨{ s with fresh := s.fresh + 1 }, rs.set t { r with todo := todo, held := some (i, s.fresh) }, by rfl, ⟨h.index, h.closed, h.keep, ?_, ?_, ?_⟩, List.length_set⟩
            · refine hapart _ ?_
              intro j hj
              simp only [Reader.files, Option.map_some, Option.toList_some, List.mem_append, List.mem_singleton] at hj
              simp only [Reader.files, List.mem_append]
              rw [htodo]
              rcases hj with hj | rfl
              · exact .inl (List.mem_cons_of_mem _ hj)
              · exact .inl (List.mem_cons_self ..)
            · intro u r' j g hu hg
              rcases hset _ u r' hu with ⟨rfl, rfl⟩ | ⟨hut, hu⟩
              · simp only [Option.some.injEq, Prod.mk.injEq] at hg
                obtain ⟨rfl, _⟩ := hg
                exact ⟨hlook, by have := h.index; omega⟩
              · exact h.held u r' j g hu hg
            · intro u r' j g hu hg
              rcases hset _ u r' hu with ⟨rfl, rfl⟩ | ⟨hut, hu⟩
              · exact h.got u r j g ht hg
              · exact h.got u r' j g hu hg

theorem readersRun_inv {maxFiles : Nat} {s0 : Handles} (hmax : s0.index + 1 < maxFiles) : ∀ (sched : List (Nat × Bool)) {s : Handles} {rs : List Reader},
    ReadersInv maxFiles s0 s rs → ∃ s' rs', readersRun maxFiles s rs sched = .ok (s', rs') ∧ ReadersInv maxFiles s0 s' rs' ∧ rs'.length = rs.length
  | [], s, rs, h => ⟨s, rs, rfl, h, rfl⟩
  | (t, opens) :: sched, s, rs, h => by
    obtain ⟨s1, rs1, e1, h1, l1⟩ := readersStep_inv h hmax t opens
    obtain ⟨s2, rs2, e2, h2, l2⟩ := readersRun_inv hmax sched h1
    exact ⟨s2, rs2, by rw [readersRun, e1]; exact e2, h2, l2.trans l1⟩

theorem ReadersInv.start {maxFiles : Nat} {s : Handles} {fs : List (List Nat)}
    (hdisj : ∀ (t u : Nat) (f g : List Nat), fs[t]? = some f → fs[u]? = some g → t ≠ u → ∀ i, i ∈ f → i ∈ g → fmLookup s i ≠ none) :
    ReadersInv maxFiles s s (fs.map Reader.start) := by
  have hget : ∀ (t : Nat) (r : Reader), (fs.map Reader.start)[t]? = some r → ∃ f, fs[t]? = some f ∧ r = Reader.start f := by
    intro t r ht
    rw [List.getElem?_map] at ht
    cases e : fs[t]? with
    | none => rw [e] at ht; cases ht
    | some f => rw [e] at ht; exact ⟨f, rfl, (Option.some.inj ht).symm⟩
  refine ⟨rfl, rfl, fun _ _ h => h, ?_, ?_, ?_⟩
  · intro t u r r' ht hu htu i hi hi'
    obtain ⟨f, hf, rfl⟩ := hget t r ht
    obtain ⟨g, hg, rfl⟩ := hget u r' hu
    exact hdisj t u f g hf hg htu i (by simpa [Reader.files, Reader.start] using hi) (by simpa [Reader.files, Reader.start] using hi')
  · intro t r i f ht hh
    obtain ⟨_, _, rfl⟩ := hget t r ht
    cases hh
  · intro t r i f ht hh
    obtain ⟨_, _, rfl⟩ := hget t r ht
    cases hh

/-- C41, for threads that do not share a file that is not yet open: whatever the
table of handles, however many threads there are, whatever files each reads and
whatever the schedule, nothing aborts, no handle is closed, and every read that
succeeds goes through the handle the table has for its file. Missing from the full
property: threads sharing an unopened file (C41_false). -/
theorem C41_readers_partial (maxFiles : Nat) (s : Handles) (fs : List (List Nat)) (sched : List (Nat × Bool)) (hmax : s.index + 1 < maxFiles)
    (hdisj : ∀ (t u : Nat) (f g : List Nat), fs[t]? = some f → fs[u]? = some g → t ≠ u → ∀ i, i ∈ f → i ∈ g → fmLookup s i ≠ none) :
    ∃ s' rs, readersRun maxFiles s (fs.map Reader.start) sched = .ok (s', rs) ∧ rs.length = fs.length ∧ s'.closed = s.closed ∧
      ∀ r ∈ rs, ∀ i f, (i, some f) ∈ r.got → fmLookup s' i = some f := by
  obtain ⟨s', rs, e, h, hl⟩ := readersRun_inv hmax sched (ReadersInv.start (maxFiles := maxFiles) hdisj)
  refine ⟨s', rs, e, by rw [hl, List.length_map], h.closed, ?_⟩
  intro r hr i f hg
  obtain ⟨t, ht⟩ := List.getElem?_of_mem hr
  exact h.got t r i f ht hg

/-- What thread `t`, which has to read `fs`, has done in every state. -/
def Reader.Does (index : Nat) (sched : List (Nat × Bool)) (t : Nat) (r : Reader) (fs : List Nat) : Prop :=
  (r.got.map Prod.fst).reverse ++ (r.held.map Prod.fst).toList ++ r.todo = fs ∧
    ∀ i, (i, none) ∈ r.got → i = 0 ∨ index + 1 < i ∨ (t, false) ∈ sched

theorem Reader.Does.mono {index t : Nat} {sched sched' : List (Nat × Bool)} {r : Reader} {fs : List Nat} (h : r.Does index sched t fs) (hs : ∀ x ∈ sched, x ∈ sched') : r.Does index sched' t fs :=
  ⟨h.1, fun i hi => (h.2 i hi).imp_right (·.imp_right (hs _))⟩

theorem fmInsert_index {maxFiles i f : Nat} {s s' : Handles} (e : fmInsert maxFiles s i f = .ok s') : s'.index = s.index := by
  unfold fmInsert at e
  obtain ⟨items, _, e⟩ := Res.bind_eq_ok.1 e
  obtain ⟨_, _, e⟩ := Res.bind_eq_ok.1 e
  cases e; rfl

theorem readersRun_does {maxFiles : Nat} {fs : List (List Nat)} (sched : List (Nat × Bool)) : ∀ {s s' : Handles} {rs rs' : List Reader} {past : List (Nat × Bool)},
    readersRun maxFiles s rs sched = .ok (s', rs') → rs.length = fs.length →
    (∀ (t : Nat) (r : Reader) (f : List Nat), rs[t]? = some r → fs[t]? = some f → r.Does s.index past t f) →
    s'.index = s.index ∧ rs'.length = fs.length ∧ ∀ (t : Nat) (r : Reader) (f : List Nat), rs'[t]? = some r → fs[t]? = some f → r.Does s.index (past ++ sched) t f := by
  induction sched with
  | nil => intro s s' rs rs' past e hl h; cases e; rw [List.append_nil]; exact ⟨rfl, hl, h⟩
  | cons x sched ih =>
    intro s s' rs rs' past e hl h
    obtain ⟨t, opens⟩ := x
    unfold readersRun at e
    obtain ⟨⟨s1, rs1⟩, e1, e⟩ := Res.bind_eq_ok.1 e
    have key : s1.index = s.index ∧ rs1.length = fs.length ∧ ∀ (u : Nat) (r : Reader) (f : List Nat), rs1[u]? = some r → fs[u]? = some f → r.Does s.index (past ++ [(t, opens)]) u f := by
      have keep : ∀ (u : Nat) (r : Reader) (f : List Nat), rs[u]? = some r → fs[u]? = some f → r.Does s.index (past ++ [(t, opens)]) u f :=
        fun u r f hr hf => (h u r f hr hf).mono fun x hx => List.mem_append_left _ hx
      unfold readersStep at e1
      cases ht : rs[t]? with
      | none => rw [ht] at e1; cases e1; exact ⟨rfl, hl, keep⟩
      | some r =>
        rw [ht] at e1
        dsimp only at e1
        obtain ⟨⟨s2, r2⟩, e2, e1⟩ := Res.bind_eq_ok.1 e1
        cases e1
        have move : s2.index = s.index ∧ ∀ f, fs[t]? = some f → r2.Does s.index (past ++ [(t, opens)]) t f := by
          have hin : (t, opens) ∈ past ++ [(t, opens)] := List.mem_append_right _ (List.mem_singleton.2 rfl)
          unfold readerStep at e2
          split at e2
          · next i g hh =>
            obtain ⟨s3, e3, e2⟩ := Res.bind_eq_ok.1 e2
            cases e2
            refine ⟨fmInsert_index e3, fun f hf => ?_⟩
            obtain ⟨h1, h2⟩ := keep t r f ht hf
            rw [hh] at h1
            refine ⟨by simpa [List.append_assoc] using h1, fun j hj => ?_⟩
            rcases List.mem_cons.1 hj with hj | hj
            · cases hj
            · exact h2 j hj
          · next hh =>
            have add : ∀ {i : Nat} {todo : List Nat} {f : List Nat} (g : Option Nat), r.todo = i :: todo → fs[t]? = some f →
                (g = none → i = 0 ∨ s.index + 1 < i ∨ (t, false) ∈ past ++ [(t, opens)]) →
                ({ r with todo := todo, got := (i, g) :: r.got } : Reader).Does s.index (past ++ [(t, opens)]) t f := by
              intro i todo f g hd hf hg
              obtain ⟨h1, h2⟩ := keep t r f ht hf
              rw [hh, hd] at h1
              refine ⟨by simpa [hh, List.append_assoc] using h1, fun j hj => ?_⟩
              rcases List.mem_cons.1 hj with hj | hj
              · cases hj; exact hg rfl
              · exact h2 j hj
            split at e2
            · cases e2; exact ⟨rfl, fun f hf => keep t r f ht hf⟩
            · next i todo hd =>
              split at e2
              · next hi => cases e2; exact ⟨rfl, fun f hf => add none hd hf fun _ => hi.imp_right .inl⟩
              · split at e2
                · cases e2; exact ⟨rfl, fun f hf => add _ hd hf (nomatch ·)⟩
                · split at e2
                  · cases e2
                    refine ⟨rfl, fun f hf => ?_⟩
                    obtain ⟨h1, h2⟩ := keep t r f ht hf
                    rw [hh, hd] at h1
                    exact ⟨by simpa [List.append_assoc] using h1, h2⟩
                  · next ho =>
                    cases e2
                    have : opens = false := by simpa using ho
                    exact ⟨rfl, fun f hf => add none hd hf fun _ => .inr (.inr (this ▸ hin))⟩
        refine ⟨move.1, by rw [List.length_set]; exact hl, fun u r' f hr hf => ?_⟩
        rw [List.getElem?_set] at hr
        split at hr
        · next htu =>
          subst htu
          split at hr
          · cases hr; exact move.2 f hf
          · cases hr
        · exact keep u r' f hr hf
    obtain ⟨k1, k2, k3⟩ := key
    obtain ⟨m1, m2, m3⟩ := ih e k2 (past := past ++ [(t, opens)]) (by rw [k1]; exact k3)
    refine ⟨m1.trans k1, m2, fun u r f hr hf => ?_⟩
    have := m3 u r f hr hf
    rw [k1, List.append_assoc] at this
    exact this

/-- C41, what the threads did. In every schedule that does not abort, every thread reads its files
in order, leaving none out, and a read fails only for a number that no file of the database has or
because the file could not be opened. -/
theorem C41_reads (maxFiles : Nat) (s s' : Handles) (fs : List (List Nat)) (sched : List (Nat × Bool)) (rs : List Reader)
    (e : readersRun maxFiles s (fs.map Reader.start) sched = .ok (s', rs)) (t : Nat) (r : Reader) (f : List Nat) (hr : rs[t]? = some r) (hf : fs[t]? = some f) :
    ((r.got.map Prod.fst).reverse ++ (r.held.map Prod.fst).toList ++ r.todo = f) ∧
      ∀ i, (i, none) ∈ r.got → i = 0 ∨ s.index + 1 < i ∨ (t, false) ∈ sched := by
  refine (readersRun_does sched e (fs := fs) (past := []) (by rw [List.length_map]) fun t r f hr hf => ?_).2.2 t r f hr hf
  rw [List.getElem?_map, hf] at hr
  cases hr
  exact ⟨rfl, fun i hi => nomatch hi⟩

/-- C41 in a database that still is in its first file: any number of concurrent
reads, in any schedule, is safe, since the only file is open from the start. -/
theorem C41_one_file_partial (maxFiles : Nat) (rand : List Nat) (fs : List (List Nat)) (sched : List (Nat × Bool)) (hmax : 2 < maxFiles)
    (h1 : ∀ f ∈ fs, ∀ i ∈ f, i = 1) :
    ∃ s s' rs, handlesInit maxFiles 1 rand = .ok s ∧ readersRun maxFiles s (fs.map Reader.start) sched = .ok (s', rs) ∧
      ∀ r ∈ rs, ∀ i f, (i, some f) ∈ r.got → s.current = some f := by
  obtain ⟨s, e, _, hc, hi, _⟩ := handlesInit_ok (maxFiles := maxFiles) rand (Nat.le_refl 1) (by omega)
  obtain ⟨c, hcu, hcl⟩ := hc.cur
  rw [hi] at hcl
  have hone : ∀ (t : Nat) (f : List Nat), fs[t]? = some f → ∀ i ∈ f, i = 1 := fun t f h => h1 f (List.mem_of_getElem? h)
  obtain ⟨s', rs, e', h, hl⟩ := readersRun_inv (s0 := s) (by omega) sched (ReadersInv.start (maxFiles := maxFiles) (fs := fs) (by
    intro t u f g hf _ _ i hif _
    rw [hone t f hf i hif, hcl]; simp))
  refine ⟨s, s', rs, e, e', ?_⟩
  -- every finished read was of file 1
  have hinv : ∀ (sched : List (Nat × Bool)) {s : Handles} {rs : List Reader} {s' : Handles} {rs' : List Reader},
      (∀ r ∈ rs, (∀ i ∈ r.files, i = 1) ∧ ∀ i o, (i, o) ∈ r.got → i = 1) → readersRun maxFiles s rs sched = .ok (s', rs') →
      ∀ r ∈ rs', (∀ i ∈ r.files, i = 1) ∧ ∀ i o, (i, o) ∈ r.got → i = 1 := by
    intro sched
    induction sched with
    | nil => intro s rs s' rs' h e; cases e; exact h
    | cons x sched ih =>
      obtain ⟨t, opens⟩ := x
      intro s rs s' rs' h e
      rw [readersRun] at e
      obtain ⟨⟨s1, rs1⟩, e1, e2⟩ := Res.bind_eq_ok.1 e
      refine ih ?_ e2
      rw [readersStep] at e1
      cases ht : rs[t]? with
      | none => rw [ht] at e1; cases e1; exact h
      | some r =>
        rw [ht] at e1
        obtain ⟨⟨s2, r2⟩, e3, e4⟩ := Res.bind_eq_ok.1 e1
        cases e4
        obtain ⟨hr1, hr2⟩ := h r (List.mem_of_getElem? ht)
        intro q hq
        rcases List.mem_or_eq_of_mem_set hq with hq | rfl
        · exact h q hq
        rw [readerStep] at e3
        unfold Reader.files at hr1
        cases hh : r.held with
        | some p =>
          obtain ⟨i, f⟩ := p
          rw [hh] at e3 hr1
          obtain ⟨s3, _, e5⟩ := Res.bind_eq_ok.1 e3
          cases e5
          refine ⟨?_, ?_⟩
          · intro j hj
            simp [Reader.files] at hj
            exact hr1 j (by simp [hj])
          · intro j o hj
            rcases List.mem_cons.1 hj with hj | hj
            · obtain ⟨rfl, _⟩ := Prod.mk.inj hj; exact hr1 _ (by simp)
            · exact hr2 j o hj
        | none =>
          rw [hh] at e3 hr1
          simp only at e3
          cases htd : r.todo with
          | nil => rw [htd] at e3; cases e3; exact h _ (List.mem_of_getElem? ht)
          | cons i todo =>
            rw [htd] at e3 hr1
            have hfin : ∀ o, (∀ j ∈ Reader.files { r with todo := todo, got := (i, o) :: r.got }, j = 1) ∧
                ∀ j o', (j, o') ∈ (i, o) :: r.got → j = 1 := by
              intro o
              refine ⟨?_, ?_⟩
              · intro j hj
                simp [Reader.files, hh] at hj
                exact hr1 j (by simp [hj])
              · intro j o' hj
                rcases List.mem_cons.1 hj with hj | hj
                · obtain ⟨rfl, _⟩ := Prod.mk.inj hj; exact hr1 _ (by simp)
                · exact hr2 j o' hj
            simp only at e3
            split at e3
            · cases e3; have := hfin none; rwa [hh] at this
            · split at e3
              · next f _ => cases e3; have := hfin (some f); rwa [hh] at this
              · split at e3
                · cases e3
                  refine ⟨?_, fun j o hj => hr2 j o hj⟩
                  intro j hj
                  simp [Reader.files] at hj
                  exact hr1 j (by simp; tauto)
                · cases e3; have := hfin none; rwa [hh] at this
  intro r hr i f hg
  have h1' := (hinv sched (s := s) (rs := fs.map Reader.start) (by
    intro r hr
    obtain ⟨f, hf, rfl⟩ := List.mem_map.1 hr
    refine ⟨?_, fun i o h => by cases h⟩
    intro i hi
    simp [Reader.files, Reader.start] at hi
    exact h1 f hf i hi) e' r hr).2 i (some f) hg
  subst h1'
  obtain ⟨t, ht⟩ := List.getElem?_of_mem hr
  have := h.got t r 1 f ht hg
  rw [h.keep 1 c hcl] at this
  rw [hcu]; exact this

/-- The hypotheses of the partial theorem are met: three threads in a database in its
fourth file, reading different old files and sharing the current one. -/
theorem C41_example : ∃ s, handlesInit 0x7fff 4 [] = .ok s ∧ ∃ s' rs,
    readersRun 0x7fff s ([[1, 4, 1], [4, 2], [3, 4, 3]].map Reader.start)
      [(0, true), (1, true), (2, true), (1, true), (0, true), (2, true), (1, true), (0, true), (0, true), (2, true), (2, true)] = .ok (s', rs) ∧
    s'.live.length = 4 := by
  let r := (handlesInit 0x7fff 4 []).bind fun s =>
    (readersRun 0x7fff s ([[1, 4, 1], [4, 2], [3, 4, 3]].map Reader.start)
      [(0, true), (1, true), (2, true), (1, true), (0, true), (2, true), (1, true), (0, true), (0, true), (2, true), (2, true)]).bind fun p => .ok (s, p)
  have h : (match r with | .ok (_, s', _) => decide (s'.live.length = 4) | _ => false) = true := by decide +kernel
  have hr : ∃ x, r = .ok x := by
    cases e : r with
    | ok x => exact ⟨x, rfl⟩
    | _ => rw [e] at h; simp at h
  obtain ⟨⟨s, s', rs⟩, hx⟩ := hr
  rw [hx] at h
  simp only [decide_eq_true_eq] at h
  obtain ⟨s1, e1, hx⟩ := Res.bind_eq_ok.1 hx
  obtain ⟨p, e2, hx⟩ := Res.bind_eq_ok.1 hx
  simp only [Res.ok.injEq, Prod.mk.injEq] at hx
  obtain ⟨rfl, rfl⟩ := hx
  exact ⟨_, e1, _, _, e2, h⟩

end Urkel
