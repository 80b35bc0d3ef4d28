import Verif.Spec.Keep
import Verif.Lemmas.Quiet
import Verif.Lemmas.Answers
import Verif.Lemmas.BigValue
/-
A commit on files that may be damaged: what is read afterwards is what was in memory.
-/
namespace Urkel

/-! ### Records -/

/-- The bits of a path as they are read back: the bytes that are not used are zero. -/
def packed (b : Bits) : Bits := ⟨b.size, b.data.take ((b.size + 7) / 8) ++ (List.replicate 32 (0 : UInt8)).drop ((b.size + 7) / 8)⟩

theorem packed_path {b : Bits} (hs : Sized b) : (packed b).path = b.path := by
  have h1 := hs.le; have h2 := hs.len
  unfold packed Bits.path
  dsimp only
  rw [bitsOf_append, List.take_append_of_le_length (by rw [length_bitsOf, List.length_take]; omega), bitsOf_take, List.take_take,
    Nat.min_eq_left (by omega)]

theorem packed_sized {b : Bits} (hs : Sized b) : Sized (packed b) := by
  have h1 := hs.le; have h2 := hs.len
  refine ⟨h1, ?_⟩
  unfold packed
  simp only [List.length_append, List.length_take, List.length_drop, List.length_replicate]
  omega

/-- A branch with any path is written and read back. -/
theorem nodeWrite_sized {b : Bits} (hs : Sized b) {l r : Node} {pl pr : Ptr} {hl hr : B32} (h o)
    (cl : childRef l = .ok (pl, hl)) (cr : childRef r = .ok (pr, hr)) (okl : PtrOk pl) (okr : PtrOk pr) :
    ∃ d, nodeWrite (.internal h o b l r) = .ok d ∧ d.length ≤ 113 ∧ 1 ≤ d.length ∧
      nodeRead d = .ok (some (.internal none none (packed b) (.hash hl pl) (.hash hr pr))) := by
  have hle := hs.le
  have hlenb : (b.data.take ((b.size + 7) / 8)).length = (b.size + 7) / 8 := by
    simp [hs.len]; omega
  simp only [nodeWrite, cl, cr, Res.bind_ok, Res.pure_eq]
  refine ⟨_, rfl, ?_⟩
  by_cases h0 : b.size > 255
  · have hs256 : b.size = 256 := by omega
    simp only [hs256] at hlenb
    simp only [hs256]
    refine ⟨?_, ?_, ?_⟩
    · simp [hl.len, hr.len, hs.len]
    · simp [hl.len, hr.len, hs.len]
    · unfold nodeRead
      rw [if_neg (by simp)]
      simp only [List.append_assoc]
      rw [takeN_leBytes, Res.bind_ok]
      simp only [leNat_leBytes]
      have e1 : ((((if 256 > 0 then 1 else 0) ||| if 256 > 255 then 2 else 0) <<< 4 ||| 1) % 256 ^ 1 : Nat) = 49 := by decide
      rw [e1]
      have e2 : ((49 &&& 15 : Nat) == 1) = true := by decide
      have e3 : ((49 >>> 4 &&& 1 : Nat) != 0) = true := by decide
      have e4 : ((49 >>> 4 &&& 2 : Nat) != 0) = true := by decide
      rw [e2]; simp only [if_true]; rw [e3, e4]; simp only [if_true]
      rw [if_neg (by simp)]
      rw [if_pos (by omega), List.append_assoc]
      rw [takeN_leBytes, Res.bind_ok]
      simp only [leNat_leBytes]
      have e5 : (256 % 256 ^ 2 : Nat) = 256 := by decide
      rw [e5, if_neg (by decide)]
      rw [if_neg (by simp [hs.len])]
      rw [bitsInit_ok (by omega), Res.bind_ok, takeN_append _ _ hlenb, Res.bind_ok]
      simp only
      have := nodeReadChildren_ok (packed b) hl hr okl okr
      simp only [List.append_assoc] at this
      unfold packed at this ⊢
      rw [hs256] at this ⊢
      exact this
  · by_cases h1 : b.size > 0
    · simp only [h0, h1]
      refine ⟨?_, ?_, ?_⟩
      · simp [hl.len, hr.len, hs.len]; omega
      · simp [hl.len, hr.len, hs.len]
      · unfold nodeRead
        rw [if_neg (by simp)]
        simp only [List.append_assoc]
        rw [takeN_leBytes, Res.bind_ok]
        simp only [leNat_leBytes]
        have e1 : ((((if True then 1 else 0) ||| if False then 2 else 0) <<< 4 ||| 1) % 256 ^ 1 : Nat) = 17 := by decide
        rw [e1]
        have e2 : ((17 &&& 15 : Nat) == 1) = true := by decide
        have e3 : ((17 >>> 4 &&& 1 : Nat) != 0) = true := by decide
        have e4 : ((17 >>> 4 &&& 2 : Nat) != 0) = false := by decide
        rw [e2]; simp only [if_true]; rw [e3, e4]; simp only [if_true, if_false, Bool.false_eq_true]
        rw [if_neg (by simp [hl.len]; omega)]
        simp only [List.append_assoc]
        rw [takeN_leBytes, Res.bind_ok]
        simp only [leNat_leBytes]
        have e5 : (b.size % 256 ^ 1 : Nat) = b.size := by omega
        rw [e5, if_neg (by simp; omega)]
        rw [if_neg (by simp [hs.len]; omega)]
        rw [bitsInit_ok (by omega), Res.bind_ok, takeN_append _ _ hlenb, Res.bind_ok]
        simp only
        have := nodeReadChildren_ok (packed b) hl hr okl okr
        simp only [List.append_assoc] at this
        exact this
    · have hs0 : b.size = 0 := by omega
      simp only [hs0]
      refine ⟨?_, ?_, ?_⟩
      · simp [hl.len, hr.len]
      · simp [hl.len, hr.len]
      · unfold nodeRead
        rw [if_neg (by simp)]
        simp only [List.append_assoc]
        rw [takeN_leBytes, Res.bind_ok]
        simp only [leNat_leBytes]
        have e1 : ((((if 0 > 0 then 1 else 0) ||| if 0 > 255 then 2 else 0) <<< 4 ||| 1) % 256 ^ 1 : Nat) = 1 := by decide
        rw [e1]
        have e2 : ((1 &&& 15 : Nat) == 1) = true := by decide
        have e3 : ((1 >>> 4 &&& 1 : Nat) != 0) = false := by decide
        rw [e2]; simp only [if_true]; rw [e3]; simp only [if_false, Bool.false_eq_true]
        rw [bitsInit_ok (by omega), Res.bind_ok]
        have hbe : packed b = { size := 0, data := List.replicate 32 0 } := by
          unfold packed
          rw [hs0]; rfl
        have := nodeReadChildren_ok (packed b) hl hr okl okr
        simp only [List.append_assoc] at this
        simp only [show ¬ ((0:Nat) > 255) by omega, show ¬ ((0:Nat) > 0) by omega, if_false, List.nil_append]
        rw [← hbe, this]

theorem nodeRead_ptrs {d : Bytes} {h : Option B32} {p : Option Ptr} {pre : Bits} {hl hr : B32} {pl pr : Ptr}
    (e : nodeRead d = .ok (some (.internal h p pre (.hash hl pl) (.hash hr pr)))) : PtrOk pl ∧ PtrOk pr := by
  have hc : ∀ (b : Bits) (d : Bytes), nodeReadChildren b d = .ok (some (.internal h p pre (.hash hl pl) (.hash hr pr))) → PtrOk pl ∧ PtrOk pr := by
    intro b d e
    unfold nodeReadChildren at e
    split at e
    · cases e
    · next hlen =>
      obtain ⟨p1, e1, ok1⟩ := ptrRead_ok (d := d) (by omega)
      obtain ⟨k1, e2⟩ := take32_ok (d := d.drop 7) (by rw [List.length_drop]; omega)
      obtain ⟨p2, e3, ok2⟩ := ptrRead_ok (d := (d.drop 7).drop 32) (by simp only [List.length_drop]; omega)
      rw [e1, Res.bind_ok] at e
      dsimp only at e
      rw [e2, Res.bind_ok] at e
      dsimp only at e
      rw [e3, Res.bind_ok] at e
      dsimp only at e
      obtain ⟨⟨k2, d2⟩, _, e⟩ := Res.bind_eq_ok.1 e
      cases e
      exact ⟨ok1, ok2⟩
  unfold nodeRead at e
  split at e
  · cases e
  · obtain ⟨⟨t, d⟩, _, e⟩ := Res.bind_eq_ok.1 e
    dsimp only at e
    split at e
    · split at e
      · split at e
        · cases e
        · split at e
          · obtain ⟨⟨sz, d⟩, _, e⟩ := Res.bind_eq_ok.1 e
            dsimp only at e
            split at e
            · cases e
            · split at e
              · cases e
              · obtain ⟨b, _, e⟩ := Res.bind_eq_ok.1 e
                obtain ⟨⟨x, d⟩, _, e⟩ := Res.bind_eq_ok.1 e
                exact hc _ _ e
          · obtain ⟨⟨sz, d⟩, _, e⟩ := Res.bind_eq_ok.1 e
            dsimp only at e
            split at e
            · cases e
            · split at e
              · cases e
              · obtain ⟨b, _, e⟩ := Res.bind_eq_ok.1 e
                obtain ⟨⟨x, d⟩, _, e⟩ := Res.bind_eq_ok.1 e
                exact hc _ _ e
      · obtain ⟨b, _, e⟩ := Res.bind_eq_ok.1 e
        exact hc _ _ e
    · split at e
      · split at e
        · cases e
        · obtain ⟨⟨vp, d⟩, _, e⟩ := Res.bind_eq_ok.1 e
          obtain ⟨⟨k, d⟩, _, e⟩ := Res.bind_eq_ok.1 e
          cases e
      · cases e

/-! ### Flushing -/

theorem flushLoop_abort {E : Env} (cs : List Bytes) (i : Nat) {s : Store} (h : SOk s) (hf : s.faults = [])
    (hroll : Roll E.cfg.maxFile s.curSize cs) (hcur : s.curSize ≤ E.cfg.maxFile) (hi : s.index < E.cfg.maxFiles)
    (hcap : E.cfg.maxFiles ≤ s.index + cs.length) : flushLoop E (cs.map List.length) cs.flatten i s = .abort := by
  induction cs generalizing s i with
  | nil => simp at hcap; omega
  | cons c cs ih =>
    obtain ⟨r1, r2, r3⟩ := hroll
    simp only [List.length_cons] at hcap
    simp only [List.map_cons, List.flatten_cons, flushLoop]
    rw [List.take_left' rfl, List.drop_left' rfl]
    by_cases hn : s.index + 1 < E.cfg.maxFiles
    · obtain ⟨s1, e1, o1, f1, i1, c1, ff1, sl1, m1⟩ := storeWrite_next h hf r1 (by omega) hn
      rw [e1, Res.bind_ok]
      simpa using ih (i + 1) o1 ff1 (by rw [c1]; exact r3) (by omega) (by omega) (by omega)
    · have : storeWrite E s c = .abort := by
        unfold storeWrite
        simp only [hf, List.head?_nil, Option.join_none, List.tail_nil]
        rw [if_pos r1, if_neg (by simp), if_pos (by omega)]
      rw [this]; rfl

/-- A flush that comes back has written everything. -/
theorem storeFlush_of {E : Env} {s s' : Store} {vf : List Bytes} {ok : Bool} (h : Slabbed E s vf) (hi : s.index < E.cfg.maxFiles)
    (e : storeFlush E s = .ok (s', ok)) : ok = true ∧ vf.length < E.cfg.maxFiles ∧ Slabbed E s' vf ∧ s'.files = vf ∧ SOk s' ∧
      s'.index < E.cfg.maxFiles ∧ SameMeta s s' := by
  have hol : s.slab.offsetsLen ≠ 0 := by
    intro h0
    unfold storeFlush at e
    dsimp only at e
    rw [if_pos (.inl h0)] at e
    cases e
  by_cases hcap : vf.length < E.cfg.maxFiles
  · obtain ⟨s1, e1, h1, h2, h3, h4, h5, h6⟩ := storeFlush_ok h hol hcap
    rw [e1] at e
    cases e
    exact ⟨rfl, hcap, h1, h2, h3, by rw [← h3.idx, h2]; exact hcap, h6⟩
  · exfalso
    obtain ⟨c0, cs, hs, rfl⟩ := h
    have hl := slab_last c0 cs hs.sok
    have hol2 := hs.ol
    unfold storeFlush at e
    rw [if_neg (by simp only [not_or]; exact ⟨hol, by omega⟩)] at e
    simp only [hs.start, List.take_zero, List.sum_nil, List.drop_zero] at e
    rw [hs.offs, hs.data] at e
    simp only [List.map_cons, flushLoop] at e
    rw [List.take_left' rfl, List.drop_left' rfl] at e
    obtain ⟨s1, e1, o1, f1, i1, c1, ff1, sl1, m1⟩ := storeWrite_first hs.sok hs.faults hs.fit
    rw [e1, Res.bind_ok] at e
    simp only [if_true] at e
    rw [flushLoop_abort cs _ o1 ff1 (by rw [c1]; exact hs.roll) (by rw [c1]; exact hs.fit) (by rw [i1]; exact hi) (by rw [i1]; omega)] at e
    cases e

/-! ### Nodes in memory and their records -/

/-- A node in memory agrees with the files: what is marked as written can be read back, what is
not has its value in memory. -/
def Coh (rd : Rd) : Node → Prop
  | .null => True
  | .hash _ p => PtrOk p
  | .leaf _ p k v vp => (p = none → (∃ x, v = some x) ∧ vp = none) ∧
      ∀ q, p = some q → NPtr q ∧ v = none ∧ ∃ d, rd q = some d ∧ nodeRead d = .ok (some (.leaf none none k none vp))
  | .internal h p pre l r => Coh rd l ∧ Coh rd r ∧
      ∀ q, p = some q → NPtr q ∧ h.isSome = true ∧ ∃ d, rd q = some d ∧ nodeRead d = .ok (some (.internal none none pre l r))

theorem Coh.mono {rd rd' : Rd} (hle : Rd.Le rd rd') {n : Node} (h : Coh rd n) : Coh rd' n := by
  induction n with
  | null => trivial
  | hash _ p => exact h
  | leaf _ p k v vp => exact ⟨h.1, fun q hq => by obtain ⟨a, b, d, c, e⟩ := h.2 q hq; exact ⟨a, b, d, hle _ _ c, e⟩⟩
  | internal _ p pre l r ihl ihr =>
    exact ⟨ihl h.1, ihr h.2.1, fun q hq => by obtain ⟨a, b, d, c, e⟩ := h.2.2 q hq; exact ⟨a, b, d, hle _ _ c, e⟩⟩

/-- The new values as they are read back: the length is kept in one byte. -/
def trim : Node → Node
  | .null => .null
  | .hash h p => .hash h p
  | .leaf h none k v vp => .leaf h none k (v.map fun x => x.take (x.length % 256)) vp
  | .leaf h (some p) k v vp => .leaf h (some p) k v vp
  | .internal h p pre l r => .internal h p pre (trim l) (trim r)

theorem trim_null {n : Node} : trim n = .null ↔ n = .null := by
  cases n with
  | leaf h p k v vp => cases p <;> simp [trim]
  | _ => simp [trim]

theorem trim_fit {n : Node} (h : Fit n) : Fit (trim n) := by
  induction n with
  | null => trivial
  | hash _ p => exact h
  | leaf _ p k v vp =>
    cases p with
    | some p => exact h
    | none =>
      refine ⟨h.1, h.2.imp (fun ⟨x, hx, hl⟩ => ⟨x.take (x.length % 256), by rw [hx]; rfl, ?_⟩) fun ⟨a, b⟩ => ⟨by rw [a]; rfl, b⟩⟩
      rw [List.length_take]; omega
  | internal _ p pre l r ihl ihr =>
    obtain ⟨a, b, c, d, e⟩ := h
    exact ⟨a, fun h => b (trim_null.1 h), fun h => c (trim_null.1 h), ihl d, ihr e⟩

theorem resolve_at {S : Store} {q : Ptr} {d : Bytes} {h : B32} (hq : NPtr q) (hr : S.rd q = some d) :
    (∀ pre l r, nodeRead d = .ok (some (.internal none none pre l r)) → storeResolve S h q = .ok (some (.internal (some h) (some q) pre l r))) ∧
    ∀ k vp, nodeRead d = .ok (some (.leaf none none k none vp)) → storeResolve S h q = .ok (some (.leaf (some h) (some q) k none vp)) := by
  have h1 := hq.lo; have h2 := hq.hi
  have hr' : storeRead S q.size q.index q.pos = some d := hr
  refine ⟨fun pre l r e => ?_, fun k vp e => ?_⟩ <;>
  · unfold storeResolve storeReadNode
    rw [if_neg (by omega), storeReadInto_ok (by omega), Res.bind_ok, hr']
    simp only [e, Res.bind_ok, Res.pure_eq]

/-! ### Writing a tree -/

theorem flushAndHash_of {E : Env} {s s' : Store} {vf : List Bytes} {n : Node} {wrote : Bool} {r : Option Node} (h : Slabbed E s vf)
    (hi : s.index < E.cfg.maxFiles) (e : flushAndHash E s n wrote = .ok (s', r)) :
    ∃ x n2 o, nodeHash E.H n = .ok (x, n2) ∧ toHash n2 = .ok o ∧ r = some o ∧ Slabbed E s' vf ∧ s'.index < E.cfg.maxFiles ∧ SameMeta s s' := by
  have fin : ∀ {s1 : Store}, Slabbed E s1 vf → s1.index < E.cfg.maxFiles → SameMeta s s1 → (do
      let (_, n) ← nodeHash E.H n
      let o ← toHash n
      pure (s1, some o) : Res (Store × Option Node)) = .ok (s', r) →
      ∃ x n2 o, nodeHash E.H n = .ok (x, n2) ∧ toHash n2 = .ok o ∧ r = some o ∧ Slabbed E s' vf ∧ s'.index < E.cfg.maxFiles ∧ SameMeta s s' := by
    intro s1 h1 h2 h3 e
    obtain ⟨⟨x, n2⟩, e1, e⟩ := Res.bind_eq_ok.1 e
    obtain ⟨o, e2, e⟩ := Res.bind_eq_ok.1 e
    cases e
    exact ⟨x, n2, o, e1, e2, rfl, h1, h2, h3⟩
  unfold flushAndHash at e
  dsimp only at e
  split at e
  · obtain ⟨⟨s1, ok⟩, e1, e⟩ := Res.bind_eq_ok.1 e
    obtain ⟨rfl, _, h1, _, _, h4, h5⟩ := storeFlush_of h hi e1
    exact fin h1 h4 h5 e
  · exact fin h hi (SameMeta.refl _) e

theorem toHash_internal {H : HashFn} {h : Option B32} {p : Ptr} {pre : Bits} {l r n2 o : Node} {x : B32} (hp : NPtr p)
    (e1 : nodeHash H (.internal h (some p) pre l r) = .ok (x, n2)) (e2 : toHash n2 = .ok o) : o = .hash x p := by
  cases h with
  | some h => cases e1; cases e2; rw [markPtr_id hp]
  | none =>
    rw [nodeHash] at e1
    obtain ⟨⟨hl, l'⟩, _, e1⟩ := Res.bind_eq_ok.1 e1
    obtain ⟨⟨hr, r'⟩, _, e1⟩ := Res.bind_eq_ok.1 e1
    cases e1; cases e2; rw [markPtr_id hp]

theorem toHash_leaf {H : HashFn} {h : Option B32} {p : Ptr} {k : B32} {v : Option Bytes} {vp : Option Ptr} {n2 o : Node} {x : B32} (hp : NPtr p)
    (e1 : nodeHash H (.leaf h (some p) k v vp) = .ok (x, n2)) (e2 : toHash n2 = .ok o) : o = .hash x p := by
  cases h with
  | some h => cases e1; cases e2; rw [markPtr_id hp]
  | none =>
    cases v with
    | none => cases e1
    | some v => cases e1; cases e2; rw [markPtr_id hp]

theorem slabWrite_of {E : Env} {s : Store} {vf : List Bytes} {d : Bytes} {slab : Slab} (h : Slabbed E s vf) (e : slabWrite E s.slab d = .ok slab) :
    d.length ≤ E.cfg.maxFile ∧ Slabbed E { s with slab := slab } (vappend E.cfg.maxFile vf d) := by
  have hd : d.length ≤ E.cfg.maxFile := by
    unfold slabWrite at e
    obtain ⟨_, e1, _⟩ := Res.bind_eq_ok.1 e
    unfold check at e1
    split at e1
    · next h => exact of_decide_eq_true h
    · cases e1
  obtain ⟨sl, e1, h1, _⟩ := slabWrite_ok h hd
  rw [e1] at e
  cases e
  exact ⟨hd, h1⟩

/-- A root that is not in memory has a pointer to a node. -/
def NRoot (n : Node) : Prop := ∀ h p, n = .hash h p → NPtr p

/-- What is read after the write is what was in memory. -/
structure Kept (vf' : List Bytes) (n o : Node) : Prop where
  null : n = .null → o = .null
  ref : n ≠ .null → ∃ h p, o = .hash h p ∧ PtrOk p
  root : NRoot n → NRoot o
  look : ∀ {S : Store} {key : B32} {want : Bool} {d : Nat}, SOk S → FExt vf' S.files → d ≤ 256 →
    look S key want o d = look S key want (trim n) d

theorem look_same {S : Store} {key : B32} {want : Bool} {h h' : Option B32} {p p' : Option Ptr} {pre pre' : Bits} {l l' r r' : Node} {d : Nat}
    (hf : Fit (.internal h p pre l r)) (hf' : Fit (.internal h' p' pre' l' r')) (hd : d ≤ 256) (h1 : pre'.path = pre.path) (h2 : pre'.size = pre.size)
    (hl : ∀ d, d ≤ 256 → look S key want l d = look S key want l' d) (hr : ∀ d, d ≤ 256 → look S key want r d = look S key want r' d) :
    look S key want (.internal h p pre l r) d = look S key want (.internal h' p' pre' l' r') d := by
  rw [look_internal hf hd, look_internal hf' hd, h1, h2]
  split
  · cases hb : key.bits[d + pre.size]? with
    | none => rfl
    | some b =>
      have hlt : d + pre.size + 1 ≤ 256 := by
        have := (List.getElem?_eq_some_iff.1 hb).1
        rw [key_length] at this; omega
      cases b
      · exact hl _ hlt
      · exact hr _ hlt
  · rfl

/-- A new leaf. -/
theorem write_leaf {E : Env} (hc : CfgOk E.cfg) {s s1 s2 s' : Store} {vf : List Bytes} {h : Option B32} {k : B32} {x : Bytes} {n1 n2 : Node}
    {r : Option Node} (hs : Slabbed E s vf) (hi : s.index < E.cfg.maxFiles) (hx : x.length ≤ 1023)
    (e1 : storeWriteValue E s (.leaf h none k (some x) none) = .ok (s1, n1)) (e2 : storeWriteNode E s1 n1 = .ok (s2, n2))
    (e : flushAndHash E s2 n2 true = .ok (s', r)) :
    ∃ vf' o, r = some o ∧ Slabbed E s' vf' ∧ s'.index < E.cfg.maxFiles ∧ FExt vf vf' ∧ (FilesLe E.cfg.maxFile vf → FilesLe E.cfg.maxFile vf') ∧
      SameMeta s s' ∧ (vf'.length < E.cfg.maxFiles → Kept vf' (.leaf h none k (some x) none) o) := by
  have hm := hc.min; have cf := hc.file; have cfs := hc.files
  unfold storeWriteValue at e1
  obtain ⟨sl1, w1, e1⟩ := Res.bind_eq_ok.1 e1
  cases e1
  obtain ⟨d1, hs1⟩ := slabWrite_of hs w1
  unfold storeWriteNode at e2
  obtain ⟨raw, er, e2⟩ := Res.bind_eq_ok.1 e2
  have er' : raw = leafRec (savePtr sl1.fileIndex (sl1.filePos - x.length) x.length) k := by cases er; rfl
  subst er'
  clear er
  dsimp only at e2
  obtain ⟨sl2, w2, e2⟩ := Res.bind_eq_ok.1 e2
  cases e2
  obtain ⟨d2, hs2⟩ := slabWrite_of hs1 w2
  obtain ⟨hh, n2, o, eh, eo, rfl, hs', hi', hm'⟩ := flushAndHash_of hs2 hi e
  generalize hvp : savePtr sl1.fileIndex (sl1.filePos - x.length) x.length = vp at *
  have ext1 := fext_vappend E.cfg.maxFile hs.ne x
  have ext2 := fext_vappend E.cfg.maxFile hs1.ne (leafRec vp k)
  refine ⟨vappend E.cfg.maxFile (vappend E.cfg.maxFile vf x) (leafRec vp k), o, rfl, hs', hi', ext1.trans ext2,
    fun hl => filesLe_vappend hs1.ne (filesLe_vappend hs.ne hl d1) d2, ⟨hm'.1, hm'.2.1, hm'.2.2.1, hm'.2.2.2⟩, fun hlen => ?_⟩
  have hlen1 := Nat.lt_of_le_of_lt ext2.length_le hlen
  -- the value
  have r1 := vrd_vappend E.cfg.maxFile hs.ne x _ rfl
  have hll := hs1.lastLen_le
  have h4 : 1 ≤ (vappend E.cfg.maxFile vf x).length := List.length_pos_iff.2 hs1.ne
  have hfi := hs1.fileIndex
  have hfp := hs1.filePos
  simp only at hfi hfp
  have hvp' : vp = ⟨(vappend E.cfg.maxFile vf x).length, lastLen (vappend E.cfg.maxFile vf x) - x.length, x.length % 256⟩ := by
    rw [← hvp, hfi, hfp]
    unfold savePtr
    congr 1 <;> omega
  have okv : PtrOk vp := by
    rw [hvp']; exact ⟨by simp only; omega, by simp only; omega, by simp only; omega⟩
  have rv : vrd (vappend E.cfg.maxFile vf x) vp = some (x.take (x.length % 256)) := by
    rw [hvp']; exact vrd_take r1 (Nat.mod_le _ _)
  -- the record
  obtain ⟨ep, okp, ip⟩ := markPtr_ok hc hs2 hlen (n := 40) (by omega)
  have rp := vrd_vappend E.cfg.maxFile hs1.ne (leafRec vp k) 40 (length_leafRec vp k).symm
  have hw : (leafRec vp k).length = 40 := length_leafRec vp k
  rw [hw] at eh
  simp only at ep
  rw [ep] at eh
  generalize hq : (⟨(vappend E.cfg.maxFile (vappend E.cfg.maxFile vf x) (leafRec vp k)).length,
    lastLen (vappend E.cfg.maxFile (vappend E.cfg.maxFile vf x) (leafRec vp k)) - 40, 40⟩ : Ptr) = q at eh okp rp
  have hnp : NPtr q := ⟨okp, by rw [← hq]; exact ip, by rw [← hq]; show 1 ≤ 40; decide, by rw [← hq]; show 40 ≤ 113; decide⟩
  have ho := toHash_leaf hnp eh eo
  subst ho
  refine ⟨(nomatch ·), fun _ => ⟨_, _, rfl, okp⟩, fun _ _ _ e => by cases e; exact hnp, fun {S key want d} sok ext hd => ?_⟩
  have rq : S.rd q = some (leafRec vp k) := by rw [sok.rd_eq]; exact vrd_mono ext _ _ rp
  have rv' : S.rd vp = some (x.take (x.length % 256)) := by rw [sok.rd_eq]; exact vrd_mono (ext2.trans ext) _ _ rv
  rw [look_hash hd ((resolve_at hnp rq).2 k (some vp) (nodeRead_leafRec okv k)), trim, look_leaf, look_leaf]
  have c : ¬ vp.size > valueSize := by rw [hvp']; show ¬ x.length % 256 > 1023; omega
  have c2 : (x.take (x.length % 256)).length ≤ valueSize := by rw [List.length_take]; show min _ _ ≤ 1023; omega
  have rv'' : storeRead S vp.size vp.index vp.pos = some (x.take (x.length % 256)) := rv'
  simp only [treeGet, storeRetrieve, Option.map_some, if_neg c, storeReadInto_ok c, rv'', c2, decide_true, check_true, Res.bind_ok, Res.pure_eq]

/-- A new branch. -/
theorem write_branch {E : Env} (hc : CfgOk E.cfg) {s s3 s' : Store} {vf : List Bytes} {h : Option B32} {pre : Bits} {l r l' r' n' : Node}
    {o' : Option Node} (hs : Slabbed E s vf) (hi : s.index < E.cfg.maxFiles) (hf : Fit (.internal h none pre l r))
    (kl : vf.length < E.cfg.maxFiles → Kept vf l l') (kr : vf.length < E.cfg.maxFiles → Kept vf r r')
    (e3 : storeWriteNode E s (.internal h none pre l' r') = .ok (s3, n')) (e : flushAndHash E s3 n' true = .ok (s', o')) :
    ∃ vf' o, o' = some o ∧ Slabbed E s' vf' ∧ s'.index < E.cfg.maxFiles ∧ FExt vf vf' ∧ (FilesLe E.cfg.maxFile vf → FilesLe E.cfg.maxFile vf') ∧
      SameMeta s s' ∧ (vf'.length < E.cfg.maxFiles → Kept vf' (.internal h none pre l r) o) := by
  rw [storeWriteNode_branch] at e3
  obtain ⟨raw, er, e3⟩ := Res.bind_eq_ok.1 e3
  obtain ⟨slab, w, e3⟩ := Res.bind_eq_ok.1 e3
  cases e3
  obtain ⟨dl, hs3⟩ := slabWrite_of hs w
  obtain ⟨hh, n2, o, eh, eo, rfl, hs', hi', hm'⟩ := flushAndHash_of hs3 hi e
  have ext := fext_vappend E.cfg.maxFile hs.ne raw
  refine ⟨vappend E.cfg.maxFile vf raw, o, rfl, hs', hi', ext, fun hl => filesLe_vappend hs.ne hl dl,
    ⟨hm'.1, hm'.2.1, hm'.2.2.1, hm'.2.2.2⟩, fun hlen => ?_⟩
  have hlen1 := Nat.lt_of_le_of_lt ext.length_le hlen
  replace kl := kl hlen1
  replace kr := kr hlen1
  obtain ⟨hpre, nl, nr, fl, fr⟩ := hf
  obtain ⟨hl, pl, rfl, okl⟩ := kl.ref nl
  obtain ⟨hr, pr, rfl, okr⟩ := kr.ref nr
  obtain ⟨d, ed, hd1, hd2, hrd⟩ := nodeWrite_sized hpre (l := .hash hl pl) (r := .hash hr pr) none none rfl rfl okl okr
  rw [ed] at er
  obtain rfl : d = raw := by cases er; rfl
  obtain ⟨ep, okp, ip⟩ := markPtr_ok hc hs3 hlen (n := d.length) (by omega)
  have rp := vrd_vappend E.cfg.maxFile hs.ne d _ rfl
  simp only at ep
  rw [ep] at eh
  generalize hq : (⟨(vappend E.cfg.maxFile vf d).length, lastLen (vappend E.cfg.maxFile vf d) - d.length, d.length⟩ : Ptr) = q at eh okp rp
  have hnp : NPtr q := ⟨okp, by rw [← hq]; exact ip, by rw [← hq]; exact hd2, by rw [← hq]; exact hd1⟩
  have ho := toHash_internal hnp eh eo
  subst ho
  refine ⟨(nomatch ·), fun _ => ⟨_, _, rfl, okp⟩, fun _ _ _ e => by cases e; exact hnp, fun {S key want dd} sok ext' hdd => ?_⟩
  have rq : S.rd q = some d := by rw [sok.rd_eq]; exact vrd_mono ext' _ _ rp
  rw [look_hash hdd ((resolve_at hnp rq).1 _ _ _ hrd), trim]
  exact look_same ⟨packed_sized hpre, (nomatch ·), (nomatch ·), trivial, trivial⟩
    ⟨hpre, fun h => nl (trim_null.1 h), fun h => nr (trim_null.1 h), trim_fit fl, trim_fit fr⟩ hdd (packed_path hpre).symm rfl
    (fun _ h => kl.look sok (ext.trans ext') h) (fun _ h => kr.look sok (ext.trans ext') h)

theorem Kept.ext {vf vf' : List Bytes} {n o : Node} (h : Kept vf n o) (e : FExt vf vf') : Kept vf' n o :=
  ⟨h.null, h.ref, h.root, fun sok ext hd => h.look sok (e.trans ext) hd⟩

/-- Writing a tree, whatever the files contain. -/
theorem treeWrite_any {E : Env} (hc : CfgOk E.cfg) {n : Node} : ∀ {s s' : Store} {vf : List Bytes} {r : Option Node}, Slabbed E s vf →
    s.index < E.cfg.maxFiles → Fit n → Coh (vrd vf) n → treeWrite E n s = .ok (s', r) →
    ∃ vf' o, r = some o ∧ Slabbed E s' vf' ∧ s'.index < E.cfg.maxFiles ∧ FExt vf vf' ∧ (FilesLe E.cfg.maxFile vf → FilesLe E.cfg.maxFile vf') ∧
      SameMeta s s' ∧ (vf'.length < E.cfg.maxFiles → Kept vf' n o) := by
  induction n with
  | null =>
    intro s s' vf r hs hi hf hco e
    cases e
    exact ⟨vf, .null, rfl, hs, hi, FExt.refl _, id, SameMeta.refl _, fun _ => ⟨fun _ => rfl, fun h => (h rfl).elim, id, fun _ _ _ => rfl⟩⟩
  | hash h p =>
    intro s s' vf r hs hi hf hco e
    cases e
    exact ⟨vf, .hash h p, rfl, hs, hi, FExt.refl _, id, SameMeta.refl _, fun _ => ⟨(nomatch ·), fun _ => ⟨h, p, rfl, hco⟩, id, fun _ _ _ => rfl⟩⟩
  | leaf h p k v vp =>
    intro s s' vf r hs hi hf hco e
    cases p with
    | none =>
      obtain ⟨⟨x, rfl⟩, rfl⟩ := hco.1 rfl
      obtain ⟨⟨s1, n1⟩, e1, e⟩ := Res.bind_eq_ok.1 e
      obtain ⟨⟨s2, n2⟩, e2, e⟩ := Res.bind_eq_ok.1 e
      refine write_leaf hc hs hi ?_ e1 e2 e
      rcases hf.2 with ⟨y, hy, hl⟩ | ⟨hy, _⟩
      · cases hy; exact hl
      · cases hy
    | some p =>
      obtain ⟨hnp, rfl, d, hd, hrd⟩ := hco.2 p rfl
      unfold treeWrite at e
      obtain ⟨hh, n2, o, eh, eo, rfl, hs', hi', hm'⟩ := flushAndHash_of hs hi e
      have ho := toHash_leaf hnp eh eo
      subst ho
      refine ⟨vf, _, rfl, hs', hi', FExt.refl _, id, hm', fun _ => ⟨(nomatch ·), fun _ => ⟨_, _, rfl, hnp.ok⟩, fun _ _ _ e => by cases e; exact hnp, fun {S key want dd} sok ext hdd => ?_⟩⟩
      have rq : S.rd p = some d := by rw [sok.rd_eq]; exact vrd_mono ext _ _ hd
      rw [look_hash hdd ((resolve_at hnp rq).2 _ _ hrd), trim, look_leaf, look_leaf]
      rfl
  | internal h p pre l r ihl ihr =>
    intro s s' vf ro hs hi hf hco e
    obtain ⟨⟨s1, l'⟩, e1, e⟩ := Res.bind_eq_ok.1 e
    obtain ⟨vf1, l', rfl, hs1, hi1, x1, le1, m1, k1⟩ := ihl hs hi hf.2.2.2.1 hco.1 e1
    obtain ⟨⟨s2, r'⟩, e2, e⟩ := Res.bind_eq_ok.1 e
    obtain ⟨vf2, r', rfl, hs2, hi2, x2, le2, m2, k2⟩ := ihr hs1 hi1 hf.2.2.2.2 (hco.2.1.mono (vrd_mono x1)) e2
    cases p with
    | none =>
      dsimp only at e
      obtain ⟨⟨s3, n'⟩, e3, e⟩ := Res.bind_eq_ok.1 e
      have hlt : vf2.length < E.cfg.maxFiles → vf1.length < E.cfg.maxFiles := fun h => Nat.lt_of_le_of_lt x2.length_le h
      obtain ⟨vf3, o, rfl, hs', hi', x3, le3, m3, k3⟩ := write_branch hc hs2 hi2 hf (fun h => (k1 (hlt h)).ext x2) k2 e3 e
      exact ⟨vf3, o, rfl, hs', hi', (x1.trans x2).trans x3, fun hl => le3 (le2 (le1 hl)), (m1.trans m2).trans m3, k3⟩
    | some p =>
      obtain ⟨hnp, hh, d, hd, hrd⟩ := hco.2.2 p rfl
      rcases nodeRead_shape hrd with ⟨pre', hl, pl, hr, pr, e'⟩ | ⟨_, _, e'⟩
      · cases e'
        cases e1; cases e2
        obtain ⟨hh, n2, o, eh, eo, rfl, hs', hi', hm'⟩ := flushAndHash_of hs2 hi2 e
        have ho := toHash_internal hnp eh eo
        subst ho
        have x12 := x1.trans x2
        refine ⟨vf2, _, rfl, hs', hi', x12, fun hl => le2 (le1 hl), hm', fun _ => ⟨(nomatch ·), fun _ => ⟨_, _, rfl, hnp.ok⟩, fun _ _ _ e => by cases e; exact hnp, fun {S key want dd} sok ext hdd => ?_⟩⟩
        have rq : S.rd p = some d := by rw [sok.rd_eq]; exact vrd_mono (x12.trans ext) _ _ hd
        rw [look_hash hdd ((resolve_at hnp rq).1 _ _ _ hrd), trim]
        exact look_same ⟨hf.1, (nomatch ·), (nomatch ·), trivial, trivial⟩ ⟨hf.1, (nomatch ·), (nomatch ·), trivial, trivial⟩ hdd rfl rfl
          (fun _ _ => rfl) (fun _ _ => rfl)
      · cases e'

end Urkel
