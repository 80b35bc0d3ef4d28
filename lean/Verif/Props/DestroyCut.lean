import Verif.Model.DestroyCut
import Verif.Spec.DestroyCut
import Verif.Props.Destroy
/-
C95: what a process that is killed in the middle of `urkel_destroy` leaves.
-/
namespace Urkel

theorem loopTrace_take (W : Faults) (n : Nat) : ∀ (names : List Bytes) (path : Bytes) (fs F : Fs), F ∈ destroyLoopTrace W n names path fs →
    ∃ k path', destroyLoop W n (names.take k) path fs = .ok (path', F)
  | [], _, _, _, h => by simp [destroyLoopTrace] at h
  | name :: rest, path, fs, F, h => by
    rw [destroyLoopTrace] at h
    split at h
    · rename_i num e
      split at h
      · rename_i ho
        split at h
        · rename_i path1 e1
          rcases List.mem_cons.1 h with rfl | h
          · refine ⟨1, path1, ?_⟩
            rw [List.take_succ_cons, List.take_zero, destroyLoop, e]
            dsimp only
            rw [if_pos ho, e1]
            rfl
          · obtain ⟨k, path', hk⟩ := loopTrace_take W n rest _ _ F h
            refine ⟨k + 1, path', ?_⟩
            rw [List.take_succ_cons, destroyLoop, e]
            dsimp only
            rw [if_pos ho, e1]
            exact hk
        · cases h
      · rename_i ho
        obtain ⟨k, path', hk⟩ := loopTrace_take W n rest _ _ F h
        refine ⟨k + 1, path', ?_⟩
        rw [List.take_succ_cons, destroyLoop, e]
        dsimp only
        rw [if_neg ho]
        exact hk
    · cases h

/-- The buffer before the loop. -/
theorem destroyTrace_eq (W : Faults) {pfx buf : Bytes} (hp : 0 ∉ pfx) (hpl : pfx.length ≤ 1014) (fs : Fs) (hb : buf.length = pathMax + 1) :
    ∃ t, (pfx ++ [47] ++ t).length = pathMax + 1 ∧ storeDestroy W fs pfx buf =
      (if (fs.openLock W (inDir pfx nameLock)).1 = false then .ok (false, (fs.openLock W (inDir pfx nameLock)).2)
      else if W.scanFails then destroyEnd W pfx false (pfx ++ [47] ++ t) (fs.openLock W (inDir pfx nameLock)).2
      else (destroyLoop W (pfx.length + 1) (scandir ((fs.openLock W (inDir pfx nameLock)).2.names pfx)) (pfx ++ [47] ++ t)
        (fs.openLock W (inDir pfx nameLock)).2).bind fun q => destroyEnd W pfx true q.1 q.2) ∧ destroyTrace W fs pfx buf =
      (let r := fs.openLock W (inDir pfx nameLock)
      if r.1 = false then [fs, r.2]
      else if W.scanFails then fs :: r.2 :: destroyEndTrace W pfx false (pfx ++ [47] ++ t) r.2
      else fs :: r.2 :: (destroyLoopTrace W (pfx.length + 1) (scandir (r.2.names pfx)) (pfx ++ [47] ++ t) r.2 ++
          match destroyLoop W (pfx.length + 1) (scandir (r.2.names pfx)) (pfx ++ [47] ++ t) r.2 with
          | .ok q => destroyEndTrace W pfx true q.1 q.2
          | _ => [])) := by
  have h0 : wrMany buf 0 (pfx ++ [0]) = .ok (pfx ++ [0] ++ buf.drop (pfx.length + 1)) := by
    rw [wrMany_ok _ _ _ (by rw [hb, pathMax]; simp; omega)]
    simp
  have h1 : wrAt (pfx ++ [0] ++ buf.drop (pfx.length + 1)) pfx.length 47 = .ok (pfx ++ [47] ++ buf.drop (pfx.length + 1)) := by
    unfold wrAt
    rw [if_pos (by simp)]
    simp
  have hl : (pfx ++ [47] ++ buf.drop (pfx.length + 1)).length = pathMax + 1 := by
    simp only [List.length_append, List.length_singleton, List.length_drop, hb]
    rw [pathMax]; omega
  obtain ⟨t, e1, hl1, hc⟩ := write_name hp lock_slash.2.1 hl (by rw [lock_slash.2.2.2, pathMax]; omega)
  refine ⟨t, hl1, ?_, ?_⟩
  · unfold storeDestroy
    rw [if_neg (by rw [pathMax]; omega), h0, Res.bind_ok, h1, Res.bind_ok, e1, Res.bind_ok]
    dsimp only
    rw [hc]
    rfl
  · unfold destroyTrace
    rw [if_neg (by rw [pathMax]; omega), h0, Res.bind_ok, h1, Res.bind_ok, e1]
    dsimp only
    rw [hc]
    rfl

theorem destroyEndTrace_eq (W : Faults) {pfx t : Bytes} (hp : 0 ∉ pfx) (hpl : pfx.length ≤ 1014) (ret : Bool) (fs : Fs)
    (hl : (pfx ++ [47] ++ t).length = pathMax + 1) :
    destroyEndTrace W pfx ret (pfx ++ [47] ++ t) fs =
      fs.unlink W (inDir pfx nameLock) :: (if ret then [((fs.unlink W (inDir pfx nameLock)).rmdir W pfx).2] else []) := by
  obtain ⟨t1, e1, _, hc⟩ := write_name hp lock_slash.2.1 hl (by rw [lock_slash.2.2.2, pathMax]; omega)
  unfold destroyEndTrace
  rw [e1]
  dsimp only
  rw [hc]

theorem lock_names {fs fs1 : Fs} {pfx : Bytes} (hz : fs.Strings)
    (h : ∀ p, fs1.at p = if p = inDir pfx nameLock then some (.file []) else fs.at p) : ∀ n ∈ scandir (fs1.names pfx), 0 ∉ n := by
  intro n hn h0
  rw [(scandir_perm _).mem_iff, Fs.names_iff] at hn
  have h3 := hn.1
  rw [h] at h3
  split at h3
  · rename_i h4
    rw [inDir_inj h4] at h0
    exact lock_slash.2.1 h0
  · exact hz _ h3 (by simp [inDir, h0])

/-- The states are those `urkel_destroy` goes through: the last one is the one it ends in. -/
theorem C95_trace (W : Faults) {fs fs' : Fs} {pfx buf : Bytes} (hz : fs.Strings) (hp : 0 ∉ pfx) (hb : buf.length = pathMax + 1) {r : Bool}
    (h : storeDestroy W fs pfx buf = .ok (r, fs')) :
    (destroyTrace W fs pfx buf).head? = some fs ∧ (destroyTrace W fs pfx buf).getLast? = some fs' := by
  by_cases hlen : pfx.length + 10 > pathMax
  · unfold storeDestroy at h
    unfold destroyTrace
    rw [if_pos hlen] at h ⊢
    cases h
    exact ⟨rfl, rfl⟩
  have hpl : pfx.length ≤ 1014 := by rw [pathMax] at hlen; omega
  obtain ⟨t, hl, e, e2⟩ := destroyTrace_eq W hp hpl fs hb
  rw [e] at h
  rw [e2]
  dsimp only
  by_cases h1 : (fs.openLock W (inDir pfx nameLock)).1 = false
  · rw [if_pos h1] at h ⊢
    cases h
    exact ⟨rfl, rfl⟩
  rw [if_neg h1] at h ⊢
  by_cases h2 : W.scanFails = true
  · rw [if_pos h2, destroyEnd_eq W hp hpl _ _ hl] at h
    rw [if_pos h2, destroyEndTrace_eq W hp hpl _ _ hl]
    cases h
    exact ⟨rfl, rfl⟩
  rw [if_neg h2] at h ⊢
  obtain ⟨q, hq, h⟩ := Res.bind_eq_ok.1 h
  rw [hq]
  dsimp only
  refine ⟨rfl, ?_⟩
  have hlq : ∃ t', q.1 = pfx ++ [47] ++ t' ∧ (pfx ++ [47] ++ t').length = pathMax + 1 := by
    rcases openLock_cases W fs pfx with ⟨h3, -⟩ | ⟨-, -, -, fs1, h3, h4⟩
    · rw [h3] at h1; exact absurd rfl h1
    rw [h3] at hq
    rcases destroyLoop_ok W hp hpl _ t _ (lock_names hz h4) hl with ⟨t', fs', e3, hl', -⟩ | ⟨e3, -⟩
    · rw [e3] at hq; cases hq; exact ⟨t', rfl, hl'⟩
    · rw [e3] at hq; cases hq
  obtain ⟨t', hq1, hl'⟩ := hlq
  rw [hq1, destroyEnd_eq W hp hpl _ _ hl', if_pos rfl] at h
  rw [hq1, destroyEndTrace_eq W hp hpl _ _ hl', if_pos rfl]
  simp only [Res.ok.injEq] at h
  rw [h]
  rw [← List.cons_append, ← List.cons_append, List.getLast?_append]
  rfl

theorem FileName.own {n : Bytes} {k : Nat} (h : FileName n k) (hk : k < 2 ^ 32) : OwnName n := Or.inr ⟨h.1, h.2.1, by rw [h.2.2]; exact hk⟩

theorem before_strcmp {m n : Bytes} (h : RemovedBefore m n) : ¬ strcmp n m ≤ 0 := by
  rcases h with ⟨i, j, hm, hn, hij⟩ | ⟨⟨i, hm⟩, rfl⟩
  · have h1 := strcmp_decimal (hn.1.trans hm.1.symm) hn.2.1 hm.2.1
    have e1 : decimal m = i := hm.2.2
    have e2 : decimal n = j := hn.2.2
    rw [e1, e2] at h1
    omega
  · obtain ⟨h1, h2, -⟩ := hm
    cases m with
    | nil => cases h1
    | cons c m =>
      have hc := (h2 c (by simp)).2
      have hm : "meta".toUTF8.toList = [109, 101, 116, 97] := by decide +kernel
      rw [hm, strcmp]
      have : (109 : UInt8) ≠ c := by
        intro h; rw [← h] at hc; revert hc; decide
      rw [if_pos this]
      have : (109 : UInt8).toNat = 109 := rfl
      rw [this]
      omega

/-- What is known of the states on the way. -/
structure OnTheWay (W : Faults) (fs F : Fs) (pfx : Bytes) : Prop where
  other : ∀ p, ¬ OwnPath pfx p → F.at p = fs.at p
  own : ∀ n, OwnName n → F.at (inDir pfx n) = fs.at (inDir pfx n) ∨
    (F.at (inDir pfx n) = none ∧ W.locked = false ∧ ∃ d, fs.at (inDir pfx n) = some (.file d))
  order : (∀ p, W.unlinkFails p = false) → ∀ m n, OwnName m → OwnName n → RemovedBefore m n → fs.at (inDir pfx n) ≠ none →
    F.at (inDir pfx n) = none → ∀ d, F.at (inDir pfx m) ≠ some (.file d)
  lock : F.at (inDir pfx nameLock) = fs.at (inDir pfx nameLock) ∨
    (fs.at (inDir pfx nameLock) ≠ some .dir ∧ (F.at (inDir pfx nameLock) = none ∨ F.at (inDir pfx nameLock) = some (.file [])))
  dir : F.at pfx = fs.at pfx ∨ (F.at pfx = none ∧ fs.at pfx = some .dir)

theorem OnTheWay.refl (W : Faults) (fs : Fs) (pfx : Bytes) : OnTheWay W fs fs pfx :=
  ⟨fun _ _ => rfl, fun _ _ => .inl rfl, fun _ _ _ _ _ _ h1 h2 => absurd h2 h1, .inl rfl, .inl rfl⟩

theorem OnTheWay.of_at {W : Faults} {fs F G : Fs} {pfx : Bytes} (h : OnTheWay W fs F pfx) (hp : ∀ p, p ≠ pfx → p ≠ inDir pfx nameLock → G.at p = F.at p)
    (hl : G.at (inDir pfx nameLock) = F.at (inDir pfx nameLock) ∨ (fs.at (inDir pfx nameLock) ≠ some .dir ∧ G.at (inDir pfx nameLock) = none))
    (hd : G.at pfx = F.at pfx ∨ (G.at pfx = none ∧ fs.at pfx = some .dir)) : OnTheWay W fs G pfx := by
  have hown : ∀ n, OwnName n → G.at (inDir pfx n) = F.at (inDir pfx n) := by
    intro n hn
    refine hp _ (fun h => inDir_ne pfx n h) fun h => ?_
    rw [inDir_inj h] at hn
    exact lock_not_own hn
  refine ⟨fun p hno => ?_, fun n hn => ?_, fun hu m n hm hn hb h1 h2 => ?_, ?_, ?_⟩
  · rw [hp p (fun h => hno (.inl h)) (fun h => hno (.inr (.inl h)))]
    exact h.other p hno
  · rw [hown n hn]; exact h.own n hn
  · rw [hown n hn] at h2
    rw [hown m hm]
    exact h.order hu m n hm hn hb h1 h2
  · rcases hl with hl | ⟨h1, h2⟩
    · rw [hl]; exact h.lock
    · exact .inr ⟨h1, .inl h2⟩
  · rcases hd with hd | hd
    · rw [hd]; exact h.dir
    · exact .inr hd

theorem pfx_ne_inDir (pfx n : Bytes) : pfx ≠ inDir pfx n := fun h => inDir_ne pfx n h.symm

/-- Every state is of this kind. -/
theorem onTheWay {W : Faults} {fs F : Fs} {pfx buf : Bytes} (hz : fs.Strings) (hp : 0 ∉ pfx) (hb : buf.length = pathMax + 1)
    (h : F ∈ destroyTrace W fs pfx buf) : OnTheWay W fs F pfx := by
  by_cases hlen : pfx.length + 10 > pathMax
  · unfold destroyTrace at h
    rw [if_pos hlen] at h
    rw [List.mem_singleton.1 h]
    exact .refl ..
  have hpl : pfx.length ≤ 1014 := by rw [pathMax] at hlen; omega
  obtain ⟨t, hl, -, e2⟩ := destroyTrace_eq W hp hpl fs hb
  rw [e2] at h
  dsimp only at h
  rcases openLock_cases W fs pfx with ⟨h3, -⟩ | ⟨hdir, hnl, -, fs1, h3, h4⟩
  · rw [h3, if_pos rfl] at h
    simp only [List.mem_cons, List.not_mem_nil, or_false, or_self] at h
    rw [h]; exact .refl ..
  rw [h3] at h
  dsimp only at h
  have w1 : OnTheWay W fs fs1 pfx := by
    refine ⟨fun p hno => ?_, fun n hn => .inl ?_, fun _ m n _ hn _ h1 h2 => ?_, .inr ⟨hnl, .inr ?_⟩, .inl ?_⟩
    · have hne : p ≠ inDir pfx nameLock := fun h => hno (.inr (.inl h))
      rw [h4, if_neg hne]
    · rw [h4, if_neg]
      intro h; rw [inDir_inj h] at hn; exact lock_not_own hn
    · rw [h4, if_neg (fun h => by rw [inDir_inj h] at hn; exact lock_not_own hn)] at h2
      exact absurd h2 h1
    · rw [h4, if_pos rfl]
    · rw [h4, if_neg (pfx_ne_inDir _ _)]
  -- the end of the call
  have hend : ∀ (ret : Bool) (t' : Bytes) (G : Fs), OnTheWay W fs G pfx → (pfx ++ [47] ++ t').length = pathMax + 1 →
      F ∈ destroyEndTrace W pfx ret (pfx ++ [47] ++ t') G → OnTheWay W fs F pfx := by
    intro ret t' G hG hl' hF
    rw [destroyEndTrace_eq W hp hpl _ _ hl'] at hF
    have w2 : OnTheWay W fs (G.unlink W (inDir pfx nameLock)) pfx := by
      refine hG.of_at (fun p _ hne => ?_) ?_ (.inl ?_)
      · rw [Fs.at_unlink, if_neg (fun h => hne h.1)]
      · rw [Fs.at_unlink]
        split
        · exact .inr ⟨hnl, rfl⟩
        · exact .inl rfl
      · rw [Fs.at_unlink, if_neg (fun h => pfx_ne_inDir _ _ h.1)]
    rcases List.mem_cons.1 hF with rfl | hF
    · exact w2
    · split at hF
      · rw [List.mem_singleton.1 hF]
        rcases rmdir_cases W (G.unlink W (inDir pfx nameLock)) pfx with ⟨e, _⟩ | ⟨_, _, _, e⟩
        · rw [e]; exact w2
        · rw [e]
          refine w2.of_at (fun p hne _ => ?_) (.inl ?_) (.inr ?_)
          · rw [Fs.at_remove, if_neg hne]
          · rw [Fs.at_remove, if_neg (fun h => pfx_ne_inDir _ _ h.symm)]
          · rw [Fs.at_remove, if_pos rfl]; exact ⟨rfl, hdir⟩
      · cases hF
  by_cases hlk : W.locked = true
  · rw [if_pos (by simp [hlk])] at h
    simp only [List.mem_cons, List.not_mem_nil, or_false] at h
    rcases h with rfl | rfl
    · exact .refl ..
    · exact w1
  rw [if_neg (by simp [hlk])] at h
  -- the loop
  have hloop : ∀ k (path' : Bytes) (G : Fs), destroyLoop W (pfx.length + 1) ((scandir (fs1.names pfx)).take k) (pfx ++ [47] ++ t) fs1 = .ok (path', G) →
      OnTheWay W fs G pfx ∧ ∃ t', path' = pfx ++ [47] ++ t' ∧ (pfx ++ [47] ++ t').length = pathMax + 1 := by
    intro k path' G e
    have hsort := scandir_sorted (fs1.names pfx)
    have hmem : ∀ n, n ∈ scandir (fs1.names pfx) ↔ fs1.at (inDir pfx n) ≠ none ∧ 47 ∉ n ∧ n ≠ [] := by
      intro n
      rw [(scandir_perm _).mem_iff, Fs.names_iff]
    have hown1 : ∀ n, OwnName n → fs1.at (inDir pfx n) = fs.at (inDir pfx n) := by
      intro n ho
      rw [h4, if_neg]
      intro h
      rw [inDir_inj h] at ho
      exact lock_not_own ho
    rcases destroyLoop_ok W hp hpl ((scandir (fs1.names pfx)).take k) t fs1 (fun n hn => lock_names hz h4 n (List.mem_of_mem_take hn)) hl with
      ⟨t', G', e3, hl', h5, h6, -⟩ | ⟨e3, -⟩
    case inr => rw [e3] at e; cases e
    rw [e3] at e
    cases e
    refine ⟨⟨fun p hno => ?_, fun n hn => ?_, fun hu m n hm hn hbf h1 h2 => ?_, .inr ⟨hnl, .inr ?_⟩, .inl ?_⟩, t', rfl, hl'⟩
    · rcases h5 p with h | ⟨_, _, n, _, ho, hp'⟩
      · rw [h]; exact w1.other p hno
      · exact absurd (.inr (.inr ⟨n, ho, hp'⟩)) hno
    · rcases h5 (inDir pfx n) with h | ⟨h, hd, _⟩
      · rw [h, hown1 n hn]; exact .inl rfl
      · rw [hown1 n hn] at hd
        exact .inr ⟨h, by simpa using hlk, hd⟩
    · -- `n` is gone, so it is one of the first names, and so is `m`, if it is there
      rcases h5 (inDir pfx n) with h | ⟨_, _, n', hn', _, e'⟩
      · rw [h, hown1 n hn] at h2
        exact absurd h2 h1
      obtain rfl := inDir_inj e'
      rcases h5 (inDir pfx m) with h | ⟨h, _⟩
      · cases hat : fs.at (inDir pfx m) with
        | none => rw [h, hown1 m hm, hat]; exact fun _ h => nomatch h
        | some x =>
          have hmm : m ∈ scandir (fs1.names pfx) :=
            (hmem m).2 ⟨by rw [hown1 m hm, hat]; exact fun h => (nomatch h), (own_slash hm).1, (own_slash hm).2.2⟩
          rw [← List.take_append_drop k (scandir (fs1.names pfx))] at hmm
          rcases List.mem_append.1 hmm with hmm | hmm
          · exact h6 m hmm hm (hu _)
          · exfalso
            rw [← List.take_append_drop k (scandir (fs1.names pfx)), List.pairwise_append] at hsort
            exact before_strcmp hbf (hsort.2.2 n hn' m hmm)
      · rw [h]; exact fun _ h => nomatch h
    · rcases h5 (inDir pfx nameLock) with h | ⟨_, _, n, _, ho, hp'⟩
      · rw [h, h4, if_pos rfl]
      · rw [← inDir_inj hp'] at ho
        exact absurd ho lock_not_own
    · rcases h5 pfx with h | ⟨_, _, n, _, _, hp'⟩
      · rw [h, h4, if_neg (pfx_ne_inDir _ _)]
      · exact absurd hp' (pfx_ne_inDir _ _)
  split at h
  · rcases List.mem_cons.1 h with rfl | h
    · exact .refl ..
    rcases List.mem_cons.1 h with rfl | h
    · exact w1
    · exact hend _ _ _ w1 hl h
  · rcases List.mem_cons.1 h with rfl | h
    · exact .refl ..
    rcases List.mem_cons.1 h with rfl | h
    · exact w1
    rcases List.mem_append.1 h with h | h
    · obtain ⟨k, path', hk⟩ := loopTrace_take W _ _ _ _ _ h
      exact (hloop k path' F hk).1
    · split at h
      · rename_i q hq
        rw [← List.take_length (l := scandir (fs1.names pfx))] at hq
        obtain ⟨w2, t', hq1, hl'⟩ := hloop _ q.1 q.2 hq
        rw [hq1] at h
        exact hend _ _ _ w2 hl' h
      · cases h

/-- Whenever a process is killed in `urkel_destroy` (whatever else fails): nothing but the directory, its lock file, "meta" and files with ten-digit names
in it is changed; each of the latter is as before or gone, and all are as before if another process has the lock. -/
theorem C95_untouched (W : Faults) {fs F : Fs} {pfx buf : Bytes} (hz : fs.Strings) (hp : 0 ∉ pfx) (hb : buf.length = pathMax + 1)
    (h : F ∈ destroyTrace W fs pfx buf) :
    (∀ p, ¬ OwnPath pfx p → F.at p = fs.at p) ∧
    (∀ n, OwnName n → F.at (inDir pfx n) = fs.at (inDir pfx n) ∨ F.at (inDir pfx n) = none) ∧
    (W.locked = true → ∀ n, OwnName n → F.at (inDir pfx n) = fs.at (inDir pfx n)) := by
  have w := onTheWay hz hp hb h
  refine ⟨w.other, fun n hn => (w.own n hn).imp id (·.1), fun hl n hn => ?_⟩
  rcases w.own n hn with h | ⟨_, h, _⟩
  · exact h
  · rw [hl] at h; cases h

/-- The data files are removed in the order of their numbers, and the key file after them. -/
theorem C95_order (W : Faults) {fs F : Fs} {pfx buf : Bytes} (hz : fs.Strings) (hp : 0 ∉ pfx) (hb : buf.length = pathMax + 1)
    (hu : ∀ p, W.unlinkFails p = false) (h : F ∈ destroyTrace W fs pfx buf) {m n : Bytes} (hm : OwnName m) (hn : OwnName n) (hbf : RemovedBefore m n)
    (hwas : fs.at (inDir pfx n) ≠ none) (hgone : F.at (inDir pfx n) = none) : ∀ d, F.at (inDir pfx m) ≠ some (.file d) :=
  (onTheWay hz hp hb h).order hu m n hm hn hbf hwas hgone

theorem meta_own : OwnName nameMeta := .inl rfl

theorem fileName_of (k : Nat) (hk : k < 2 ^ 32) : ∃ n, FileName n k := by
  obtain ⟨n, -, h⟩ := C37_serialize k hk
  exact ⟨n, h⟩

theorem findIndexLoop_false : ∀ (l : List Bytes) (i : Nat) {n : Nat} {r : Bool}, findIndexLoop l i false = .ok (n, r) → r = false
  | [], _, _, _, h => by
    rw [findIndexLoop] at h; cases h; rfl
  | name :: l, i, n, r, h => by
    rw [findIndexLoop] at h
    obtain ⟨x, -, h⟩ := Res.bind_eq_ok.1 h
    cases x with
    | none => exact findIndexLoop_false l i h
    | some num =>
      dsimp only at h
      rw [ite_self] at h
      exact findIndexLoop_false l num h

/-- Data files without number 1 are not accepted. -/
theorem findIndexLoop_gap : ∀ (l : List Bytes) (ret : Bool), (∀ n ∈ l, 0 ∉ n) → (∃ n ∈ l, ∃ k, FileName n k ∧ k < 2 ^ 32) →
    (∀ n ∈ l, ¬ FileName n 1) → ∃ i, findIndexLoop l 0 ret = .ok (i, false)
  | [], _, _, h, _ => by obtain ⟨n, h, _⟩ := h; cases h
  | name :: l, ret, hz, h, h1 => by
    obtain ⟨r, e, hr⟩ := C37_parse name (fun c hc h0 => hz name (by simp) (h0 ▸ hc))
    rw [findIndexLoop, e, Res.bind_ok]
    cases r with
    | none =>
      refine findIndexLoop_gap l ret (fun n hn => hz n (by simp [hn])) ?_ (fun n hn => h1 n (by simp [hn]))
      obtain ⟨n, hn, k, hk, hk2⟩ := h
      rcases List.mem_cons.1 hn with rfl | hn
      · have := (hr k).2 ⟨hk, hk2⟩
        cases this
      · exact ⟨n, hn, k, hk, hk2⟩
    | some num =>
      dsimp only
      have hnum : num ≠ (0 + 1) % 2 ^ 32 := by
        rintro rfl
        exact h1 name (by simp) ((hr _).1 rfl).1
      rw [if_pos hnum]
      have : ∀ (l : List Bytes) (i : Nat), (∀ n ∈ l, 0 ∉ n) → ∃ x, findIndexLoop l i false = .ok x := by
        intro l
        induction l with
        | nil => intro i _; exact ⟨_, rfl⟩
        | cons a l ih =>
          intro i hz
          obtain ⟨r, e, -⟩ := C37_parse a (fun c hc h0 => hz a (by simp) (h0 ▸ hc))
          rw [findIndexLoop, e, Res.bind_ok]
          cases r with
          | none => exact ih _ (fun n hn => hz n (by simp [hn]))
          | some x =>
            dsimp only
            rw [ite_self]
            exact ih _ (fun n hn => hz n (by simp [hn]))
      obtain ⟨⟨i, r⟩, hx⟩ := this l num (fun n hn => hz n (by simp [hn]))
      refine ⟨i, ?_⟩
      rw [hx, findIndexLoop_false _ _ hx]

/-- What a process killed in `urkel_destroy` leaves of a database is one of four things: the database as it was; its key file alone; neither key nor
data files; or the key file and the data files but the first ones, which `urkel_store_find_index` refuses, so that `urkel_open` fails. Never is it some of
the data in a database that opens. -/
theorem C95_left (W : Faults) {fs F : Fs} {pfx buf : Bytes} (hz : fs.Strings) (hp : 0 ∉ pfx) (hb : buf.length = pathMax + 1)
    (hu : ∀ p, W.unlinkFails p = false) (h : F ∈ destroyTrace W fs pfx buf) {c : Dir} {b : Bytes} (hk : c.keyFile = some b) (hc : HoldsFiles fs pfx c) :
    HoldsFiles F pfx c ∨ HoldsFiles F pfx ⟨some b, []⟩ ∨ HoldsFiles F pfx ⟨none, []⟩ ∨
    ∃ j, 0 < j ∧ j < c.files.length ∧ F.at (inDir pfx nameMeta) = some (.file b) ∧ Beheaded F pfx c j ∧ findIndex (F.names pfx) = .ok none := by
  have w := onTheWay hz hp hb h
  obtain ⟨c1, c2, c3⟩ := hc
  rw [hk] at c1
  -- a file that was not there is not there
  have hnot : ∀ n, OwnName n → fs.at (inDir pfx n) = none → F.at (inDir pfx n) = none := by
    intro n hn h0
    rcases w.own n hn with h | h
    · rw [h, h0]
    · exact h.1
  have hfile : ∀ n, OwnName n → ∀ d, fs.at (inDir pfx n) = some (.file d) → F.at (inDir pfx n) = some (.file d) ∨ F.at (inDir pfx n) = none := by
    intro n hn d h0
    rcases w.own n hn with h | h
    · rw [h, h0]; exact .inl rfl
    · exact .inr h.1
  have hwas : ∀ n k, FileName n k → 1 ≤ k → k ≤ c.files.length → ∃ d, c.files[k - 1]? = some d ∧ fs.at (inDir pfx n) = some (.file d) := by
    intro n k hn h1 h2
    have := c3 n k hn (by omega)
    rw [if_neg (by omega), List.getElem?_eq_getElem (by omega)] at this
    exact ⟨_, List.getElem?_eq_getElem (by omega), this⟩
  have hgone : ∀ n k, FileName n k → k < 2 ^ 32 → (k = 0 ∨ c.files.length < k) → F.at (inDir pfx n) = none := by
    intro n k hn h1 h2
    refine hnot n (hn.own h1) ?_
    rw [c3 n k hn h1]
    rcases h2 with h2 | h2
    · rw [if_pos h2]
    · rw [if_neg (by omega), List.getElem?_eq_none (by omega)]; rfl
  -- files that are gone come before those that are there
  have hord : ∀ n k m i, FileName n k → FileName m i → 1 ≤ i → i < k → k ≤ c.files.length → F.at (inDir pfx n) = none → F.at (inDir pfx m) = none := by
    intro n k m i hn hm h1 h2 h3 h0
    obtain ⟨d, -, hd⟩ := hwas n k hn (by omega) h3
    obtain ⟨d', -, hd'⟩ := hwas m i hm h1 (by omega)
    have := w.order hu m n (hm.own (by omega)) (hn.own (by omega)) (.inl ⟨i, k, hm, hn, h2⟩) (by rw [hd]; exact fun h => nomatch h) h0
    rcases hfile m (hm.own (by omega)) d' hd' with h | h
    · exact absurd h (this d')
    · exact h
  -- the number of files that are gone
  obtain ⟨j, hj, hj1, hj2⟩ : ∃ j, j ≤ c.files.length ∧ (∀ n k, FileName n k → 1 ≤ k → k ≤ j → F.at (inDir pfx n) = none) ∧
      ∀ n k, FileName n k → j < k → k ≤ c.files.length → F.at (inDir pfx n) = fs.at (inDir pfx n) := by
    have : ∀ m, m ≤ c.files.length → ∃ j, j ≤ m ∧ (∀ n k, FileName n k → 1 ≤ k → k ≤ j → F.at (inDir pfx n) = none) ∧
        ∀ n k, FileName n k → j < k → k ≤ m → F.at (inDir pfx n) = fs.at (inDir pfx n) := by
      intro m
      induction m with
      | zero => intro _; exact ⟨0, Nat.le_refl _, fun _ _ _ h1 h2 => by omega, fun _ _ _ h1 h2 => by omega⟩
      | succ m ih =>
        intro hm
        obtain ⟨j, h1, h2, h3⟩ := ih (by omega)
        obtain ⟨n0, hn0⟩ := fileName_of (m + 1) (by omega)
        obtain ⟨d, -, hd⟩ := hwas n0 (m + 1) hn0 (by omega) (by omega)
        rcases hfile n0 (hn0.own (by omega)) d hd with h | h
        · refine ⟨j, by omega, h2, fun n k hn h4 h5 => ?_⟩
          rcases Nat.lt_or_ge k (m + 1) with h6 | h6
          · exact h3 n k hn h4 (by omega)
          · obtain rfl : k = m + 1 := by omega
            obtain rfl : n = n0 := IsName.inj hn hn0
            rw [h, hd]
        · refine ⟨m + 1, Nat.le_refl _, fun n k hn h4 h5 => ?_, fun _ _ _ h1 h2 => by omega⟩
          rcases Nat.lt_or_ge k (m + 1) with h6 | h6
          · exact hord n0 (m + 1) n k hn0 hn h4 h6 (by omega) h
          · obtain rfl : k = m + 1 := by omega
            obtain rfl : n = n0 := IsName.inj hn hn0
            exact h
    exact this _ (Nat.le_refl _)
  have hbeh : Beheaded F pfx c j := by
    intro n k hn hk2
    by_cases h0 : k ≤ j
    · rw [if_pos h0]
      rcases Nat.eq_zero_or_pos k with h1 | h1
      · exact hgone n k hn hk2 (.inl h1)
      · exact hj1 n k hn h1 h0
    · rw [if_neg h0]
      rcases Nat.lt_or_ge c.files.length k with h1 | h1
      · rw [hgone n k hn hk2 (.inr h1), List.getElem?_eq_none (by omega)]; rfl
      · rw [hj2 n k hn (by omega) h1, c3 n k hn hk2, if_neg (by omega)]
  have hall : ∀ kf, j = c.files.length → F.at (inDir pfx nameMeta) = kf.map .file → HoldsFiles F pfx ⟨kf, []⟩ := by
    intro kf hj' hm
    refine ⟨hm, Nat.zero_le _, fun n k hn hk2 => ?_⟩
    rw [hbeh n k hn hk2]
    split
    · split <;> rfl
    · rw [List.getElem?_eq_none (by omega), if_neg (by omega)]; rfl
  rcases hfile nameMeta meta_own b c1 with hm | hm
  · rcases Nat.eq_zero_or_pos j with h0 | h0
    · left
      refine ⟨by rw [hk]; exact hm, c2, fun n k hn hk2 => ?_⟩
      rw [hbeh n k hn hk2, h0]
      by_cases hk0 : k = 0
      · rw [if_pos hk0, if_pos (by omega)]
      · rw [if_neg hk0, if_neg (by omega)]
    · rcases Nat.lt_or_ge j c.files.length with h1 | h1
      · refine .inr (.inr (.inr ⟨j, h0, h1, hm, hbeh, ?_⟩))
        have hzF : ∀ n ∈ scandir (F.names pfx), 0 ∉ n := by
          intro n hn h0
          rw [(scandir_perm _).mem_iff, Fs.names_iff] at hn
          by_cases ho : OwnPath pfx (inDir pfx n)
          · rcases ho with h | h | ⟨m, hm, h⟩
            · exact inDir_ne _ _ h
            · rw [inDir_inj (n := nameLock) h] at h0; exact lock_slash.2.1 h0
            · rw [inDir_inj h] at h0; exact (own_slash hm).2.1 h0
          · have := hn.1
            rw [w.other _ ho] at this
            exact hz _ this (by simp [inDir, h0])
        have hgap := findIndexLoop_gap (scandir (F.names pfx)) true hzF ?_ ?_
        · obtain ⟨i, hi⟩ := hgap
          unfold findIndex
          rw [hi]; rfl
        · obtain ⟨n, hn⟩ := fileName_of (j + 1) (by omega)
          refine ⟨n, ?_, j + 1, hn, by omega⟩
          rw [(scandir_perm _).mem_iff, Fs.names_iff]
          refine ⟨?_, (own_slash (hn.own (by omega))).1, (own_slash (hn.own (by omega))).2.2⟩
          obtain ⟨d, -, hd⟩ := hwas n (j + 1) hn (by omega) (by omega)
          rw [hj2 n (j + 1) hn (by omega) (by omega), hd]
          exact fun h => nomatch h
        · intro n hn h1
          rw [(scandir_perm _).mem_iff, Fs.names_iff] at hn
          exact hn.1 (hj1 n 1 h1 (by omega) (by omega))
      · exact .inr (.inl (hall (some b) (by omega) hm))
  · refine .inr (.inr (.inl (hall none ?_ hm)))
    rcases Nat.lt_or_ge j c.files.length with h1 | h1
    · exfalso
      obtain ⟨n, hn⟩ := fileName_of (j + 1) (by omega)
      obtain ⟨d, -, hd⟩ := hwas n (j + 1) hn (by omega) (by omega)
      have := w.order hu n nameMeta (hn.own (by omega)) meta_own (.inr ⟨⟨_, hn⟩, rfl⟩) (by rw [show fs.at (inDir pfx nameMeta) = _ from c1]; exact fun h => nomatch h) hm d
      rw [hj2 n (j + 1) hn (by omega) (by omega)] at this
      exact this hd
    · omega

/-- In two of the cases `urkel_open` succeeds and finds an empty database. -/
theorem C95_empty (E : Env) {b : Bytes} (hb : b.length = 32) (rand : B32) {kf : Option Bytes} (hkf : kf = some b ∨ kf = none) :
    ∃ d' db tx, dbOpen E ⟨kf, []⟩ rand = .ok (d', .ok db) ∧ dbRoot db = B32.zero ∧ txCreate E db none = .ok (db, .ok tx) ∧ Shows db tx Contents.empty := by
  rcases hkf with rfl | rfl
  · have hc : CreateImage ⟨b, hb⟩ ⟨some b, []⟩ := by
      have := CreateImage.key (rand := ⟨b, hb⟩) 32 (Nat.le_refl _)
      rwa [show (B32.mk b hb).bytes.take 32 = b from List.take_of_length_le (by show b.length ≤ 32; omega)] at this
    rcases C27_create_crash_partial E ⟨b, hb⟩ hc rand with ⟨d', db, tx, _, h1, _, h2, h3, h4⟩ | ⟨b', h1, h2, _⟩
    · exact ⟨d', db, tx, h1, h2, h3, h4⟩
    · cases h1; omega
  · rcases C27_create_crash_partial E rand (.nothing) rand with ⟨d', db, tx, _, h1, _, h2, h3, h4⟩ | ⟨b', h1, _⟩
    · exact ⟨d', db, tx, h1, h2, h3, h4⟩
    · cases h1

/-- Calling `urkel_destroy` again finishes what a killed one has begun: it returns 1 exactly if the first one would have (unless that one had already
removed the directory), and no file of the database is left. -/
theorem C95_again (W : Faults) {fs F : Fs} {pfx buf buf' : Bytes} (hz : fs.Strings) (hp : 0 ∉ pfx) (hb : buf.length = pathMax + 1) (hb' : buf'.length = pathMax + 1)
    (hlen : pfx.length ≤ 1013) (h : F ∈ destroyTrace W fs pfx buf) :
    (F.at pfx = some .dir ∧ fs.at pfx = some .dir ∧ ∃ r F', storeDestroy {} F pfx buf' = .ok (r, F') ∧ (r = true ↔ OnlyOurs fs pfx) ∧
      (fs.at (inDir pfx nameLock) ≠ some .dir → ∀ n, OwnName n → ∀ d, F'.at (inDir pfx n) ≠ some (.file d)) ∧
      (r = true → F'.at pfx = none ∧ ∀ q, F'.at (pfx ++ [47] ++ q) = none)) ∨
    (F.at pfx = none ∧ fs.at pfx = some .dir) ∨ (fs.at pfx ≠ some .dir ∧ F.at pfx = fs.at pfx) := by
  have w := onTheWay hz hp hb h
  have hzF : F.Strings := by
    intro p hpn h0
    by_cases ho : OwnPath pfx p
    · rcases ho with rfl | rfl | ⟨n, hn, rfl⟩
      · exact hp h0
      · simp only [inDir, List.mem_append, List.mem_singleton] at h0
        rcases h0 with (h0 | h0) | h0
        · exact hp h0
        · cases h0
        · exact lock_slash.2.1 h0
      · simp only [inDir, List.mem_append, List.mem_singleton] at h0
        rcases h0 with (h0 | h0) | h0
        · exact hp h0
        · cases h0
        · exact (own_slash hn).2.1 h0
    · rw [w.other p ho] at hpn
      exact hz p hpn h0
  by_cases hF : F.at pfx = some .dir
  · left
    have hfs : fs.at pfx = some .dir := by
      rcases w.dir with h | h
      · rw [← h]; exact hF
      · exact h.2
    obtain ⟨r, F', e, h1, h2⟩ := C58_outcome hzF hp hb' hlen hF
    have hours : OnlyOurs F pfx ↔ OnlyOurs fs pfx := by
      constructor
      · intro ho q x hx
        by_cases hown : OwnPath pfx (pfx ++ [47] ++ q)
        · refine ⟨hown, ?_⟩
          rcases hown with h | h | ⟨n, hn, h⟩
          · exact absurd h (inDir_ne _ _)
          · rw [show pfx ++ [47] ++ q = inDir pfx nameLock from h] at hx
            rcases w.lock with h | ⟨h, _⟩
            · rw [← h] at hx; exact (ho nameLock x hx).2
            · cases x with
              | file d => exact ⟨d, rfl⟩
              | dir => exact absurd hx h
          · rw [h] at hx
            rcases w.own n hn with h | ⟨_, _, d, hd⟩
            · rw [← h] at hx; exact (ho n x hx).2
            · rw [hd] at hx; cases hx; exact ⟨d, rfl⟩
        · rw [← w.other _ hown] at hx
          exact ho q x hx
      · intro ho q x hx
        by_cases hown : OwnPath pfx (pfx ++ [47] ++ q)
        · refine ⟨hown, ?_⟩
          rcases hown with h | h | ⟨n, hn, h⟩
          · exact absurd h (inDir_ne _ _)
          · rw [show pfx ++ [47] ++ q = inDir pfx nameLock from h] at hx
            rcases w.lock with h | ⟨_, h | h⟩
            · rw [h] at hx; exact (ho nameLock x hx).2
            · rw [h] at hx; cases hx
            · rw [h] at hx; cases hx; exact ⟨_, rfl⟩
          · rw [h] at hx
            rcases w.own n hn with h | ⟨h, _⟩
            · rw [h] at hx; exact (ho n x hx).2
            · rw [h] at hx; cases hx
        · rw [w.other _ hown] at hx
          exact ho q x hx
    refine ⟨hF, hfs, r, F', e, h1.trans hours, ?_, ?_⟩
    · intro hl
      refine h2 ?_
      rcases w.lock with h | ⟨_, h | h⟩
      · rw [h]; exact hl
      · rw [h]; exact fun h => nomatch h
      · rw [h]; exact fun h => nomatch h
    · rintro rfl
      exact (C58_success {} hzF hp hb' e).2.2
  · right
    rcases w.dir with h | h
    · by_cases hd : fs.at pfx = some .dir
      · rw [h] at hF; exact absurd hd hF
      · exact .inr ⟨hd, h⟩
    · exact .inl h

/-- "/d" with a key file and two data files. -/
def twoFs : Fs :=
  ⟨[([47, 100], .dir), (inDir [47, 100] nameMeta, .file [1]), (inDir [47, 100] ((serializeU32 1).take 10), .file [2]),
    (inDir [47, 100] ((serializeU32 2).take 10), .file [3]), ([47, 101], .file [3])]⟩

theorem fileName_unique {n : Bytes} {k : Nat} (h : FileName n k) (hk : k < 2 ^ 32) : n = (serializeU32 k).take 10 := by
  obtain ⟨m, e, hm⟩ := C37_serialize k hk
  rw [e, List.take_left' hm.1]
  exact IsName.inj h hm

/-- The states on the way through `urkel_destroy` of a database with two data files. -/
theorem C95_example : twoFs.Strings ∧ HoldsFiles twoFs [47, 100] ⟨some [1], [[2], [3]]⟩ ∧
    (destroyTrace {} twoFs [47, 100] (List.replicate 1025 7)).length = 7 ∧
    ∃ F ∈ destroyTrace {} twoFs [47, 100] (List.replicate 1025 7), F.at (inDir [47, 100] nameMeta) = some (.file [1]) ∧
      F.at (inDir [47, 100] ((serializeU32 1).take 10)) = none ∧ F.at (inDir [47, 100] ((serializeU32 2).take 10)) = some (.file [3]) ∧
      findIndex (F.names [47, 100]) = .ok none := by
  refine ⟨strings_of (by decide +kernel), ⟨by decide +kernel, by decide, fun n k hn hk => ?_⟩, by decide +kernel,
    ⟨[(inDir [47, 100] nameLock, .file []), ([47, 100], .dir), (inDir [47, 100] nameMeta, .file [1]),
      (inDir [47, 100] ((serializeU32 2).take 10), .file [3]), ([47, 101], .file [3])]⟩, ?_, by decide +kernel, by decide +kernel, by decide +kernel, by decide +kernel⟩
  · have hne : ∀ j, j < 2 ^ 32 → j ≠ k → inDir [47, 100] n ≠ inDir [47, 100] ((serializeU32 j).take 10) := by
      intro j hj hjk h
      have := inDir_inj h
      rw [this] at hn
      obtain ⟨m, e, hm⟩ := C37_serialize j hj
      rw [e, List.take_left' hm.1] at hn
      exact hjk (hm.2.2.symm.trans hn.2.2)
    match k with
    | 1 => rw [fileName_unique hn hk]; decide +kernel
    | 2 => rw [fileName_unique hn hk]; decide +kernel
    | 0 =>
      rw [fileName_unique hn hk]; decide +kernel
    | k + 3 =>
      rw [if_neg (by omega), List.getElem?_eq_none (by show 2 ≤ k + 3 - 1; omega), Option.map_none, Fs.at_none]
      intro e he
      simp only [twoFs, List.mem_cons, Prod.mk.injEq, List.not_mem_nil, or_false] at he
      rcases he with ⟨h, _⟩ | ⟨h, _⟩ | ⟨h, _⟩ | ⟨h, _⟩ | ⟨h, _⟩
      · exact inDir_ne [47, 100] n h
      · have := congrArg List.length (inDir_inj h)
        rw [hn.1] at this
        revert this; decide +kernel
      · exact hne 1 (by omega) (by omega) h
      · exact hne 2 (by omega) (by omega) h
      · have := congrArg List.length h
        simp [inDir, hn.1] at this
  · have : ((destroyTrace {} twoFs [47, 100] (List.replicate 1025 7)).map Fs.ents)[2]? = some
      [(inDir [47, 100] nameLock, .file []), ([47, 100], .dir), (inDir [47, 100] nameMeta, .file [1]),
      (inDir [47, 100] ((serializeU32 2).take 10), .file [3]), ([47, 101], .file [3])] := by decide +kernel
    rw [List.getElem?_map] at this
    cases h : (destroyTrace {} twoFs [47, 100] (List.replicate 1025 7))[2]? with
    | none => rw [h] at this; cases this
    | some F =>
      rw [h] at this
      have hF : F.ents = _ := Option.some.inj this
      have : F = ⟨F.ents⟩ := rfl
      rw [hF] at this
      rw [← this]
      exact List.mem_of_getElem? h

end Urkel
