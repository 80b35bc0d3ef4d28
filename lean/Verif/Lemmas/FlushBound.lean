import Verif.Lemmas.Db
/-
How much a commit keeps in memory before writing it to the files.
-/
namespace Urkel

/-- The buffer holds bytes for the current file only. -/
structure Straight (E : Env) (s : Store) : Prop where
  offsets : s.slab.offsets = []
  start : s.slab.start = 0
  off : s.slab.dataOff = s.slab.data.length
  pos : s.slab.filePos = s.curSize + s.slab.data.length
  max : s.slab.filePos ≤ E.cfg.maxFile

theorem slabWrite_grow {E : Env} {sl sl' : Slab} {d : Bytes} (e : slabWrite E sl d = .ok sl') :
    sl'.data = sl.data ++ d ∧ sl.fileIndex ≤ sl'.fileIndex ∧ (sl'.fileIndex = sl.fileIndex →
      sl'.offsets = sl.offsets ∧ sl'.start = sl.start ∧ sl'.dataOff = sl.dataOff + d.length ∧ sl'.filePos = sl.filePos + d.length ∧
      sl'.filePos ≤ E.cfg.maxFile) := by
  unfold slabWrite at e
  obtain ⟨_, _, e⟩ := Res.bind_eq_ok.1 e
  have h : ∃ sl1 : Slab, (if sl.offsetsLen == 0 then { sl with offsetsLen := 1 } else sl) = sl1 ∧ sl1.data = sl.data ∧ sl1.fileIndex = sl.fileIndex ∧
      sl1.offsets = sl.offsets ∧ sl1.start = sl.start ∧ sl1.dataOff = sl.dataOff ∧ sl1.filePos = sl.filePos := by
    by_cases ho : sl.offsetsLen == 0
    · exact ⟨_, if_pos ho, rfl, rfl, rfl, rfl, rfl, rfl⟩
    · exact ⟨_, if_neg ho, rfl, rfl, rfl, rfl, rfl, rfl⟩
  obtain ⟨sl1, h0, h1, h2, h3, h4, h5, h6⟩ := h
  rw [h0] at e
  dsimp only at e
  by_cases hr : sl1.filePos + d.length > E.cfg.maxFile
  · rw [if_pos hr] at e
    generalize (if sl1.offsets.length == sl1.offsetsLen then sl1.offsetsLen + 1 else sl1.offsetsLen) = ol at e
    split at e
    · cases e
      refine ⟨by show sl1.data ++ d = _; rw [h1], by show _ ≤ sl1.fileIndex + 1; omega, fun hc => ?_⟩
      have hc' : sl1.fileIndex + 1 = sl.fileIndex := hc
      omega
    · cases e
  · rw [if_neg hr] at e
    cases e
    refine ⟨by show sl1.data ++ d = _; rw [h1], by show _ ≤ sl1.fileIndex; omega, fun _ => ⟨h3, h4, ?_, ?_, ?_⟩⟩
    · show sl1.dataOff + d.length = _; omega
    · show sl1.filePos + d.length = _; omega
    · show sl1.filePos + d.length ≤ _; omega

theorem storeWrite_bound {E : Env} {s s' : Store} {d : Bytes} {ok : Bool} (e : storeWrite E s d = .ok (s', ok)) :
    s'.slab = s.slab ∧ ∃ evs, s'.io = evs ++ s.io ∧ (∀ j x, IoEv.append j x ∈ evs → x.length ≤ d.length) ∧
      (ok = true → s.curSize + d.length ≤ E.cfg.maxFile → s'.index = s.index ∧ s'.curSize = s.curSize + d.length ∧
        evs = if d = [] then [] else [.append s.index d]) := by
  unfold storeWrite at e
  dsimp only at e
  have wr : ∀ {s1 : Store} {fault : Option Fault}, (if d.length = 0 then Res.ok (s1, true)
    else match fault with
      | some (.writeFail k) => .ok ({ s1 with files := appendFile s1.files s1.index (d.take k), io := .append s1.index (d.take k) :: s1.io }, false)
      | some .mapFail =>
        .ok ({ s1 with files := appendFile s1.files s1.index d, curSize := s1.curSize + d.length, io := .append s1.index d :: s1.io }, false)
      | _ =>
        .ok ({ s1 with files := appendFile s1.files s1.index d, curSize := s1.curSize + d.length, io := .append s1.index d :: s1.io }, true)) = .ok (s', ok) →
      s'.slab = s1.slab ∧ s'.index = s1.index ∧ ∃ evs, s'.io = evs ++ s1.io ∧ (∀ j x, IoEv.append j x ∈ evs → x.length ≤ d.length) ∧
        (ok = true → s'.curSize = s1.curSize + d.length ∧ evs = if d = [] then [] else [.append s1.index d]) := by
    intro s1 fault e
    by_cases hd : d.length = 0
    · rw [if_pos hd] at e
      cases e
      exact ⟨rfl, rfl, [], rfl, (fun _ _ h => nomatch h), fun _ => ⟨by omega, by rw [if_pos (List.length_eq_zero_iff.1 hd)]⟩⟩
    · rw [if_neg hd] at e
      have hne : d ≠ [] := fun h => hd (by rw [h]; rfl)
      split at e
      · next k =>
        cases e
        refine ⟨rfl, rfl, [.append s1.index (d.take k)], rfl, fun j x hx => ?_, fun h => nomatch h⟩
        simp only [List.mem_singleton, IoEv.append.injEq] at hx
        rw [hx.2, List.length_take]; omega
      · cases e
        refine ⟨rfl, rfl, [.append s1.index d], rfl, fun j x hx => ?_, fun h => nomatch h⟩
        simp only [List.mem_singleton, IoEv.append.injEq] at hx
        rw [hx.2]; exact Nat.le_refl _
      · cases e
        refine ⟨rfl, rfl, [.append s1.index d], rfl, fun j x hx => ?_, fun _ => ⟨rfl, by rw [if_neg hne]⟩⟩
        simp only [List.mem_singleton, IoEv.append.injEq] at hx
        rw [hx.2]; exact Nat.le_refl _
  by_cases hr : s.curSize + d.length > E.cfg.maxFile
  · rw [if_pos hr] at e
    split at e
    · cases e
      exact ⟨rfl, [], rfl, (fun _ _ h => nomatch h), fun h => nomatch h⟩
    · split at e
      · cases e
      · have h : ∃ s2 : Store, (if s.files.length ≤ s.index then ({ s with faults := s.faults.tail, files := s.files ++ [[]], io := .create (s.index + 1) :: s.io } : Store)
            else { s with faults := s.faults.tail }) = s2 ∧ s2.slab = s.slab ∧ ∃ evs, s2.io = evs ++ s.io ∧ ∀ j x, IoEv.append j x ∉ evs := by
          by_cases hf : s.files.length ≤ s.index
          · exact ⟨_, if_pos hf, rfl, [.create (s.index + 1)], rfl, by simp⟩
          · exact ⟨_, if_neg hf, rfl, [], rfl, by simp⟩
        obtain ⟨s2, h1, h2, evs, h3, h4⟩ := h
        rw [h1] at e
        split at e
        · cases e
          exact ⟨h2, evs, h3, fun j x h => (h4 j x h).elim, fun h => nomatch h⟩
        · obtain ⟨w1, _, evs', w2, w3, _⟩ := wr e
          refine ⟨w1.trans h2, evs' ++ (.sync s2.index :: evs), ?_, ?_, fun _ h => by omega⟩
          · rw [w2]; show evs' ++ (_ :: s2.io) = _; rw [h3]; simp
          · intro j x hx
            rcases List.mem_append.1 hx with h | h
            · exact w3 j x h
            · rcases List.mem_cons.1 h with h | h
              · cases h
              · exact (h4 j x h).elim
  · rw [if_neg hr] at e
    obtain ⟨w1, w0, evs, w2, w3, w4⟩ := wr e
    exact ⟨w1, evs, w2, w3, fun h _ => ⟨w0, (w4 h).1, (w4 h).2⟩⟩

theorem flushLoop_bound {E : Env} : ∀ {ls : List Nat} {data : Bytes} {i : Nat} {s s' : Store} {r : Option Nat},
    flushLoop E ls data i s = .ok (s', r) → s'.slab = s.slab ∧ ∃ evs, s'.io = evs ++ s.io ∧ ∀ j x, IoEv.append j x ∈ evs → x.length ≤ data.length
  | [], data, i, s, s', r, e => by
    cases e; exact ⟨rfl, [], rfl, fun _ _ h => nomatch h⟩
  | len :: rest, data, i, s, s', r, e => by
    unfold flushLoop at e
    obtain ⟨⟨s1, ok⟩, e1, e⟩ := Res.bind_eq_ok.1 e
    obtain ⟨h1, evs, h2, h3, _⟩ := storeWrite_bound e1
    have h3' : ∀ j x, IoEv.append j x ∈ evs → x.length ≤ data.length := fun j x hx => by
      have := h3 j x hx
      rw [List.length_take] at this; omega
    cases ok with
    | false => cases e; exact ⟨h1, evs, h2, h3'⟩
    | true =>
      obtain ⟨g1, evs', g2, g3⟩ := flushLoop_bound (ls := rest) e
      refine ⟨g1.trans h1, evs' ++ evs, by rw [g2, h2, List.append_assoc], fun j x hx => ?_⟩
      rcases List.mem_append.1 hx with h | h
      · have := g3 j x h
        rw [List.length_drop] at this; omega
      · exact h3' j x h

theorem storeFlush_bound {E : Env} {s s' : Store} {ok : Bool} (e : storeFlush E s = .ok (s', ok)) :
    s'.slab.fileIndex = s.slab.fileIndex ∧ s'.slab.data = (if ok then [] else s.slab.data) ∧
      ∃ evs, s'.io = evs ++ s.io ∧ (∀ j x, IoEv.append j x ∈ evs → x.length ≤ s.slab.data.length) ∧
      (ok = true → Straight E s → Straight E s' ∧ s'.index = s.index ∧ evs = if s.slab.data = [] then [] else [.append s.index s.slab.data]) := by
  unfold storeFlush at e
  dsimp only at e
  split at e
  · cases e
  · obtain ⟨⟨s1, r⟩, e1, e⟩ := Res.bind_eq_ok.1 e
    obtain ⟨h1, evs, h2, h3⟩ := flushLoop_bound e1
    have h3' : ∀ j x, IoEv.append j x ∈ evs → x.length ≤ s.slab.data.length := fun j x hx => by
      have := h3 j x hx
      rw [List.length_drop] at this; omega
    cases r with
    | some i =>
      cases e
      exact ⟨by show s1.slab.fileIndex = _; rw [h1], by show s1.slab.data = _; rw [h1]; rfl, evs, h2, h3', fun h => nomatch h⟩
    | none =>
      cases e
      refine ⟨by show s1.slab.fileIndex = _; rw [h1], rfl, evs, h2, h3', fun _ hs => ?_⟩
      have hoff : (s.slab.offsets ++ [s.slab.dataOff]).drop s.slab.start = [s.slab.data.length] := by
        rw [hs.offsets, hs.start, hs.off]; rfl
      have hsk : s.slab.data.drop ((s.slab.offsets ++ [s.slab.dataOff]).take s.slab.start).sum = s.slab.data := by
        rw [hs.start]; rfl
      rw [hoff, hsk] at e1
      unfold flushLoop at e1
      obtain ⟨⟨s2, ok⟩, e2, e3⟩ := Res.bind_eq_ok.1 e1
      rw [List.take_length] at e2
      obtain ⟨g1, evs', g2, _, g4⟩ := storeWrite_bound e2
      cases ok with
      | false => cases e3
      | true =>
        cases e3
        have := hs.pos; have := hs.max
        obtain ⟨g5, g6, g7⟩ := g4 rfl (by omega)
        have hev : evs = evs' := List.append_cancel_right (h2.symm.trans g2)
        refine ⟨⟨rfl, rfl, rfl, ?_, ?_⟩, g5, by rw [hev, g7]⟩
        · show s1.slab.filePos = s1.curSize + 0
          rw [g1]; omega
        · show s1.slab.filePos ≤ _
          rw [g1]; omega

/-- What a part of a commit does: appends of at most `U` bytes; and if the buffer never
moves on to another file, appends of at least `W` bytes, all to the current file. -/
structure Batch (E : Env) (W U : Nat) (s s' : Store) (full : Bool) : Prop where
  mono : s.slab.fileIndex ≤ s'.slab.fileIndex
  io : ∃ evs, s'.io = evs ++ s.io ∧ (∀ j x, IoEv.append j x ∈ evs → x.length ≤ U) ∧
    (full = true → s'.slab.fileIndex = s.slab.fileIndex → Straight E s → Straight E s' ∧ s'.index = s.index ∧
      ∀ ev ∈ evs, ∃ d, ev = .append s.index d ∧ W ≤ d.length)

theorem Batch.refl {E : Env} {W U : Nat} {s : Store} {b : Bool} : Batch E W U s s b :=
  ⟨Nat.le_refl _, [], rfl, (fun _ _ h => nomatch h), fun _ _ h => ⟨h, rfl, (fun _ h => nomatch h)⟩⟩

theorem Batch.fail {E : Env} {W U : Nat} {s s' : Store} (h : Batch E W U s s' true) : Batch E W U s s' false := by
  obtain ⟨h1, evs, h2, h3, _⟩ := h
  exact ⟨h1, evs, h2, h3, fun h => nomatch h⟩

theorem Batch.trans {E : Env} {W U : Nat} {a b c : Store} {full : Bool} (h1 : Batch E W U a b true) (h2 : Batch E W U b c full) : Batch E W U a c full := by
  obtain ⟨m1, evs, i1, a1, f1⟩ := h1
  obtain ⟨m2, evs', i2, a2, f2⟩ := h2
  refine ⟨Nat.le_trans m1 m2, evs' ++ evs, by rw [i2, i1, List.append_assoc], ?_, ?_⟩
  · intro j x hx
    rcases List.mem_append.1 hx with h | h
    · exact a2 j x h
    · exact a1 j x h
  · intro hf he hs
    obtain ⟨s1, x1, y1⟩ := f1 rfl (by omega) hs
    obtain ⟨s2, x2, y2⟩ := f2 hf (by omega) s1
    refine ⟨s2, x2.trans x1, fun ev hev => ?_⟩
    rcases List.mem_append.1 hev with h | h
    · rw [← x1]; exact y2 ev h
    · exact y1 ev h

theorem batch_slab {E : Env} {W U : Nat} {s : Store} {sl : Slab} {d : Bytes} (e : slabWrite E s.slab d = .ok sl) :
    Batch E W U s { s with slab := sl } true ∧ sl.data.length = s.slab.data.length + d.length := by
  obtain ⟨h1, h2, h3⟩ := slabWrite_grow e
  refine ⟨⟨h2, [], rfl, (fun _ _ h => nomatch h), fun _ he hs => ?_⟩, by rw [h1]; simp⟩
  obtain ⟨g1, g2, g3, g4, g5⟩ := h3 he
  have hl : sl.data.length = s.slab.data.length + d.length := by rw [h1]; simp
  have := hs.off; have := hs.pos
  refine ⟨⟨g1.trans hs.offsets, g2.trans hs.start, ?_, ?_, g5⟩, rfl, (fun _ h => nomatch h)⟩
  · show sl.dataOff = sl.data.length; omega
  · show sl.filePos = s.curSize + sl.data.length; omega

theorem batch_meta {E : Env} {W U : Nat} {s s' : Store} {n : Node} {st : Meta} (hE : EnvOk E) (e : storeWriteMeta E s n = .ok (s', st)) :
    Batch E W U s s' true ∧ s'.slab.data.length ≤ s.slab.data.length + 75 ∧ s'.slab.data ≠ [] := by
  unfold storeWriteMeta at e
  obtain ⟨rp, _, e⟩ := Res.bind_eq_ok.1 e
  obtain ⟨rn, _, e⟩ := Res.bind_eq_ok.1 e
  dsimp only at e
  obtain ⟨sl1, e1, e⟩ := Res.bind_eq_ok.1 e
  obtain ⟨sl2, e2, e⟩ := Res.bind_eq_ok.1 e
  cases e
  have h1 : Batch E W U s { s with slab := sl1 } true ∧ sl1.data.length ≤ s.slab.data.length + 37 := by
    unfold padSlab at e1
    split at e1
    · obtain ⟨h, hl⟩ := batch_slab (W := W) (U := U) e1
      refine ⟨h, ?_⟩
      rw [hl, List.length_replicate]
      unfold metaSize at *
      omega
    · cases e1; exact ⟨.refl, by omega⟩
  have h2 := batch_slab (W := W) (U := U) (s := { s with slab := sl1 }) e2
  have hm : (metaWrite E s.key { s.state with rootPtr := rp, rootNode := rn }).length = 38 := length_metaWrite hE.mac _ _
  have hl := h2.2
  rw [hm] at hl
  have hl' : sl2.data.length = sl1.data.length + 38 := hl
  refine ⟨h1.1.trans h2.1, ?_, ?_⟩
  · show sl2.data.length ≤ _; omega
  · intro h
    have h' : sl2.data = [] := h
    rw [h'] at hl'; simp at hl'

/-- Values and prefixes within the limits. -/
def Node.Small : Node → Prop
  | .null => True
  | .hash _ _ => True
  | .internal _ _ pre l r => pre.size ≤ 256 ∧ l.Small ∧ r.Small
  | .leaf _ _ _ v _ => ∀ x, v = some x → x.length ≤ 1023

theorem Repr.small {H : HashFn} {rd : Rd} {n : Node} {t : PTree} (h : Repr H rd n t) : n.Small := by
  induction n generalizing t with
  | null => trivial
  | hash => trivial
  | leaf h p k v vp =>
    obtain ⟨x, _, hx, _, h | ⟨_, _, h, _⟩⟩ := h
    · intro y hy; rw [h.1] at hy; cases hy; exact hx
    · intro y hy; rw [h] at hy; cases hy
  | internal h p b l r ihl ihr =>
    obtain ⟨pre, tl, tr, _, hb, hl, hr, _⟩ := h
    exact ⟨hb.size ▸ hb.le, ihl hl, ihr hr⟩

theorem batch_value {E : Env} {W U : Nat} {s s' : Store} {h : Option B32} {p : Option Ptr} {k : B32} {v : Option Bytes} {vp : Option Ptr} {n' : Node}
    (hv : ∀ x, v = some x → x.length ≤ 1023) (e : storeWriteValue E s (.leaf h p k v vp) = .ok (s', n')) :
    Batch E W U s s' true ∧ s'.slab.data.length ≤ s.slab.data.length + 1023 ∧ ∃ x, n' = .leaf h p k v (some x) := by
  unfold storeWriteValue at e
  split at e
  · next h' p' k' v' heq =>
    cases heq
    obtain ⟨sl, e1, e⟩ := Res.bind_eq_ok.1 e
    cases e
    obtain ⟨h1, h2⟩ := batch_slab (W := W) (U := U) e1
    have := hv _ rfl
    exact ⟨h1, by show sl.data.length ≤ _; omega, _, rfl⟩
  · cases e

theorem batch_node {E : Env} {W U : Nat} {s s' : Store} {n n' : Node} {d : Bytes} (hw : nodeWrite n = .ok d) (e : storeWriteNode E s n = .ok (s', n')) :
    Batch E W U s s' true ∧ s'.slab.data.length = s.slab.data.length + d.length := by
  unfold storeWriteNode at e
  rw [hw, Res.bind_ok] at e
  dsimp only at e
  split at e
  · obtain ⟨sl, e1, e⟩ := Res.bind_eq_ok.1 e
    cases e
    exact batch_slab e1
  · obtain ⟨sl, e1, e⟩ := Res.bind_eq_ok.1 e
    cases e
    exact batch_slab e1
  · cases e

theorem length_leaf {h : Option B32} {p : Option Ptr} {k : B32} {v : Option Bytes} {vp : Ptr} {d : Bytes}
    (hw : nodeWrite (.leaf h p k v (some vp)) = .ok d) : d.length = 40 := by
  cases hw
  simp [ptrWrite, k.len]

theorem length_internal {h : Option B32} {p : Option Ptr} {pre : Bits} {l r : Node} {d : Bytes} (hp : pre.size ≤ 256)
    (hw : nodeWrite (.internal h p pre l r) = .ok d) : d.length ≤ 113 := by
  unfold nodeWrite at hw
  dsimp only at hw
  obtain ⟨⟨pl, hl⟩, _, hw⟩ := Res.bind_eq_ok.1 hw
  obtain ⟨⟨pr, hr⟩, _, hw⟩ := Res.bind_eq_ok.1 hw
  cases hw
  have : ∀ n, (pre.data.take n).length ≤ n := fun n => by rw [List.length_take]; omega
  have := this ((pre.size + 7) / 8)
  simp only [List.length_append, hl.len, hr.len, length_leBytes, ptrWrite]
  split
  · simp only [List.length_append, length_leBytes]; omega
  · split
    · simp only [List.length_append, length_leBytes]; omega
    · simp

theorem flushAndHash_batch {E : Env} {s s' : Store} {n : Node} {w : Bool} {o : Option Node} {U : Nat} (hW : 0 < E.cfg.writeBuf)
    (hs : if w then s.slab.data.length ≤ U else s.slab.data.length < E.cfg.writeBuf) (hU : E.cfg.writeBuf ≤ U)
    (e : flushAndHash E s n w = .ok (s', o)) :
    Batch E E.cfg.writeBuf U s s' o.isSome ∧ (o.isSome = true → s'.slab.data.length < E.cfg.writeBuf) ∧ s'.slab.data.length ≤ U := by
  unfold flushAndHash at e
  have e' : ((if w && needsFlush E s then storeFlush E s else pure (s, true)) >>= fun x => if !x.2 then pure (x.1, none) else do
      let (_, n) ← nodeHash E.H n
      let o ← toHash n
      pure (x.1, some o)) = Res.ok (s', o) := by rw [← e]; split <;> rfl
  obtain ⟨⟨s1, ok⟩, e1, e2⟩ := Res.bind_eq_ok.1 e'
  have fin : (ok = false → s' = s1 ∧ o = none) ∧ (ok = true → s' = s1 ∧ o.isSome = true) := by
    cases ok with
    | false => cases e2; exact ⟨(fun _ => ⟨rfl, rfl⟩), (fun h => (nomatch h))⟩
    | true =>
      obtain ⟨⟨h, n1⟩, _, e3⟩ := Res.bind_eq_ok.1 e2
      obtain ⟨n2, _, e4⟩ := Res.bind_eq_ok.1 e3
      cases e4
      exact ⟨(fun h => (nomatch h)), (fun _ => ⟨rfl, rfl⟩)⟩
  by_cases hf : (w && needsFlush E s) = true
  · rw [if_pos hf] at e1
    rw [Bool.and_eq_true] at hf
    obtain ⟨hw, hn⟩ := hf
    rw [hw, if_pos rfl] at hs
    have hn' : E.cfg.writeBuf ≤ s.slab.data.length := by
      unfold needsFlush at hn; simpa using hn
    obtain ⟨h1, h2, evs, h3, h4, h5⟩ := storeFlush_bound e1
    have hb : Batch E E.cfg.writeBuf U s s1 ok := by
      refine ⟨by omega, evs, h3, fun j x hx => Nat.le_trans (h4 j x hx) hs, fun hok _ hst => ?_⟩
      obtain ⟨g1, g2, g3⟩ := h5 hok hst
      refine ⟨g1, g2, fun ev hev => ?_⟩
      rw [g3] at hev
      split at hev
      · cases hev
      · rw [List.mem_singleton] at hev
        exact ⟨_, hev, hn'⟩
    cases ok with
    | false =>
      obtain ⟨rfl, rfl⟩ := fin.1 rfl
      exact ⟨hb, (fun h => nomatch h), by rw [h2]; exact hs⟩
    | true =>
      obtain ⟨rfl, ho⟩ := fin.2 rfl
      rw [ho]
      rw [h2]
      exact ⟨hb, fun _ => hW, Nat.zero_le _⟩
  · rw [if_neg hf] at e1
    cases e1
    obtain ⟨rfl, ho⟩ := fin.2 rfl
    rw [ho]
    have : s'.slab.data.length < E.cfg.writeBuf := by
      cases w with
      | false => exact hs
      | true =>
        have : ¬ needsFlush E s' = true := by simpa using hf
        unfold needsFlush at this
        simpa using this
    exact ⟨.refl, fun _ => this, by omega⟩

theorem treeWrite_batch {E : Env} (hW : 0 < E.cfg.writeBuf) : ∀ {n : Node} {s s' : Store} {o : Option Node}, n.Small → s.slab.data.length < E.cfg.writeBuf →
    treeWrite E n s = .ok (s', o) → Batch E E.cfg.writeBuf (E.cfg.writeBuf + 1062) s s' o.isSome ∧
      (o.isSome = true → s'.slab.data.length < E.cfg.writeBuf) ∧ s'.slab.data.length ≤ E.cfg.writeBuf + 1062 := by
  intro n
  induction n with
  | null => intro s s' o _ hs e; cases e; exact ⟨.refl, fun _ => hs, by omega⟩
  | hash h p => intro s s' o _ hs e; cases e; exact ⟨.refl, fun _ => hs, by omega⟩
  | leaf h p k v vp =>
    intro s s' o hn hs e
    unfold treeWrite at e
    cases p with
    | some p => exact flushAndHash_batch (w := false) hW hs (by omega) e
    | none =>
      dsimp only at e
      obtain ⟨⟨s1, n1⟩, e1, e⟩ := Res.bind_eq_ok.1 e
      obtain ⟨b1, l1, x, rfl⟩ := batch_value (W := E.cfg.writeBuf) (U := E.cfg.writeBuf + 1062) hn e1
      obtain ⟨⟨s2, n2⟩, e2, e⟩ := Res.bind_eq_ok.1 e
      obtain ⟨d, hd⟩ : ∃ d, nodeWrite (.leaf h none k v (some x)) = .ok d := ⟨_, rfl⟩
      obtain ⟨b2, l2⟩ := batch_node (W := E.cfg.writeBuf) (U := E.cfg.writeBuf + 1062) hd e2
      rw [length_leaf hd] at l2
      have l : s2.slab.data.length ≤ E.cfg.writeBuf + 1062 := by
        have l2' : s2.slab.data.length = s1.slab.data.length + 40 := l2
        omega
      obtain ⟨b3, l3, l4⟩ := flushAndHash_batch (s := s2) (w := true) (U := E.cfg.writeBuf + 1062) hW l (by omega) e
      exact ⟨(b1.trans b2).trans b3, l3, l4⟩
  | internal h p pre l r ihl ihr =>
    intro s s' o hn hs e
    obtain ⟨hp, hl, hr⟩ := hn
    unfold treeWrite at e
    obtain ⟨⟨s1, l1⟩, e1, e⟩ := Res.bind_eq_ok.1 e
    obtain ⟨b1, g1, k1⟩ := ihl hl hs e1
    cases l1 with
    | none => cases e; exact ⟨b1, (fun h => nomatch h), k1⟩
    | some l1 =>
      dsimp only at e
      obtain ⟨⟨s2, r1⟩, e2, e⟩ := Res.bind_eq_ok.1 e
      obtain ⟨b2, g2, k2⟩ := ihr hr (g1 rfl) e2
      cases r1 with
      | none => cases e; exact ⟨b1.trans b2, (fun h => nomatch h), k2⟩
      | some r1 =>
        dsimp only at e
        cases p with
        | some p =>
          obtain ⟨b3, l3, l4⟩ := flushAndHash_batch (s := s2) (w := false) (U := E.cfg.writeBuf + 1062) hW (g2 rfl) (by omega) e
          exact ⟨(b1.trans b2).trans b3, l3, l4⟩
        | none =>
          dsimp only at e
          obtain ⟨⟨s3, n3⟩, e3, e⟩ := Res.bind_eq_ok.1 e
          have hd : ∃ d, nodeWrite (.internal h none pre l1 r1) = .ok d := by
            unfold storeWriteNode at e3
            obtain ⟨d, hd, _⟩ := Res.bind_eq_ok.1 e3
            exact ⟨d, hd⟩
          obtain ⟨d, hd⟩ := hd
          obtain ⟨b3, l3⟩ := batch_node (W := E.cfg.writeBuf) (U := E.cfg.writeBuf + 1062) hd e3
          have := length_internal hp hd
          have := g2 rfl
          have l : s3.slab.data.length ≤ E.cfg.writeBuf + 1062 := by omega
          obtain ⟨b4, l4, l5⟩ := flushAndHash_batch (s := s3) (w := true) (U := E.cfg.writeBuf + 1062) hW l (by omega) e
          exact ⟨((b1.trans b2).trans b3).trans b4, l4, l5⟩

end Urkel
