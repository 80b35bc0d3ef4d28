import Verif.Lemmas.HeapTx
import Verif.Lemmas.ProofCodec
/-
`urkel_verify` in Model/Heap.lean.
-/
namespace Urkel

/-- The result of the loop: on failure, some nodes were pushed. -/
def hNodes (r : Option (List PNode × Bytes)) (x : List Nat × Option Bytes) : SProp := match r with
  | some (ns, d) => lpure (x.2 = some d) ∗∗ ownP x.1 ns
  | none => ex fun ns => lpure (x.2 = none) ∗∗ ownP x.1 ns

theorem hProofReadNodes_spec {A : Alloc} {bm : Bytes} : ∀ (n i : Nat) (d : Bytes) (r : Option (List PNode × Bytes)),
    proofReadNodes bm n i d = .ok r → Triple emp (hProofReadNodes A bm n i d) (hNodes r) := by
  intro n
  induction n with
  | zero =>
    intro i d r e
    cases e
    exact Triple.ret fun m hm => lpure_sep.2 ⟨rfl, hm⟩
  | succ n ih =>
    intro i d r e
    unfold proofReadNodes at e
    obtain ⟨bit, e1, e⟩ := Res.bind_eq_ok.1 e
    unfold hProofReadNodes
    refine Triple.lift e1 ?_
    have e' : ((if bit then readPrefix d else do
        let b ← bitsInit 0
        pure (some (b, d))) >>= fun r => match r with
      | none => pure none
      | some (pre, d) =>
        if d.length < 32 then pure none
        else do
          let (h, d) ← take32 d
          check (i < keyBits)
          let rest ← proofReadNodes bm n (i + 1) d
          match rest with
          | none => pure none
          | some (ns, d) => pure (some (⟨pre, h⟩ :: ns, d))) = Res.ok r := by
      rw [← e]; cases bit <;> rfl
    obtain ⟨o, e2, e3⟩ := Res.bind_eq_ok.1 e'
    refine Triple.lift e2 ?_
    cases o with
    | none =>
      cases e3
      exact Triple.ret fun m hm => ⟨[], lpure_sep.2 ⟨rfl, hm⟩⟩
    | some x =>
      obtain ⟨pre, d1⟩ := x
      dsimp only at e3 ⊢
      by_cases hl : d1.length < 32
      · rw [if_pos hl] at e3 ⊢
        cases e3
        exact Triple.ret fun m hm => ⟨[], lpure_sep.2 ⟨rfl, hm⟩⟩
      · rw [if_neg hl] at e3 ⊢
        obtain ⟨⟨h, d2⟩, e4, e5⟩ := Res.bind_eq_ok.1 e3
        obtain ⟨u, e6, e7⟩ := Res.bind_eq_ok.1 e5
        obtain ⟨rest, e8, e9⟩ := Res.bind_eq_ok.1 e7
        refine Triple.lift e4 ?_
        refine Triple.lift e6 ?_
        refine Triple.malloc fun a => ?_
        refine Triple.bind (ih _ _ _ e8) (R := pts a (.pnode ⟨pre, h⟩)) (by rw [emp_sep, sep_emp]) fun x => ?_
        obtain ⟨as, o⟩ := x
        cases rest with
        | none =>
          cases e9
          unfold hNodes
          rw [ex_sep]
          refine Triple.ex_pre fun ns => ?_
          rw [sep_assoc]
          refine Triple.pure_pre fun ho => ?_
          refine Triple.ret fun m hm => ⟨⟨pre, h⟩ :: ns, lpure_sep.2 ⟨ho, ?_⟩⟩
          show (pts a (.pnode ⟨pre, h⟩) ∗∗ ownP as ns) m
          perm hm
        | some y =>
          obtain ⟨ns, d3⟩ := y
          cases e9
          unfold hNodes
          rw [sep_assoc]
          refine Triple.pure_pre fun ho => ?_
          refine Triple.ret fun m hm => lpure_sep.2 ⟨ho, ?_⟩
          show (pts a (.pnode ⟨pre, h⟩) ∗∗ ownP as ns) m
          perm hm

/-- The result of reading a proof. -/
def hRead (r : Option Proof) (x : List Nat × Option (Nat × PBody)) : SProp := match r with
  | some p => lpure (x.2 = some (p.depth, p.body)) ∗∗ ownP x.1 p.nodes
  | none => ex fun ns => lpure (x.2 = none) ∗∗ ownP x.1 ns

theorem proofReadBody_eq (type depth : Nat) (nodes : List PNode) (d : Bytes) :
    (proofReadBody type d >>= fun b => match b with
      | none => pure none
      | some body => pure (some (⟨depth, nodes, body⟩ : Proof))) =
    (let fin (body : PBody) (d : Bytes) : Res (Option Proof) :=
        if d.length = 0 then pure (some ⟨depth, nodes, body⟩) else pure none
      match type with
      | 0 => fin .deadend d
      | 1 => do
        let r ← readPrefix d
        match r with
        | none => pure none
        | some (pre, d) =>
          if d.length < 64 then pure none
          else do
            let (l, d) ← take32 d
            let (r, d) ← take32 d
            fin (.short pre l r) d
      | 2 =>
        if d.length < 64 then pure none
        else do
          let (k, d) ← take32 d
          let (h, d) ← take32 d
          fin (.collision k h) d
      | 3 =>
        if d.length < 2 then pure none
        else do
          let (s, d) ← takeN 2 d
          let size := leNat s
          if d.length < size then pure none
          else if size > valueSize then pure none
          else do
            let (v, d) ← takeN size d
            fin (.exists v) d
      | _ => pure none : Res (Option Proof)) := by
  have fin : ∀ (body : PBody) (d : Bytes), ((if d.length = 0 then pure (some body) else pure none : Res (Option PBody)) >>= fun b => match b with
      | none => pure none
      | some body => pure (some (⟨depth, nodes, body⟩ : Proof))) = if d.length = 0 then pure (some ⟨depth, nodes, body⟩) else pure none := by
    intro body d; split <;> rfl
  unfold proofReadBody
  dsimp only
  split
  · exact fin _ _
  · cases readPrefix d with
    | ok o => cases o with
      | none => rfl
      | some x =>
        obtain ⟨pre, d1⟩ := x
        simp only [Res.bind_ok]
        by_cases hl : d1.length < 64
        · rw [if_pos hl, if_pos hl]; rfl
        · rw [if_neg hl, if_neg hl]
          cases take32 d1 with
          | ok y =>
            simp only [Res.bind_ok]
            cases take32 y.2 with
            | ok z => simp only [Res.bind_ok]; exact fin _ _
            | _ => rfl
          | _ => rfl
    | _ => rfl
  · by_cases hl : d.length < 64
    · rw [if_pos hl, if_pos hl]; rfl
    · rw [if_neg hl, if_neg hl]
      cases take32 d with
      | ok y =>
        simp only [Res.bind_ok]
        cases take32 y.2 with
        | ok z => simp only [Res.bind_ok]; exact fin _ _
        | _ => rfl
      | _ => rfl
  · by_cases hl : d.length < 2
    · rw [if_pos hl, if_pos hl]; rfl
    · rw [if_neg hl, if_neg hl]
      cases takeN 2 d with
      | ok y =>
        simp only [Res.bind_ok]
        by_cases h1 : y.2.length < leNat y.1
        · rw [if_pos h1, if_pos h1]; rfl
        · rw [if_neg h1, if_neg h1]
          by_cases h2 : leNat y.1 > valueSize
          · rw [if_pos h2, if_pos h2]; rfl
          · rw [if_neg h2, if_neg h2]
            cases takeN (leNat y.1) y.2 with
            | ok z => simp only [Res.bind_ok]; exact fin _ _
            | _ => rfl
      | _ => rfl
  · split <;> first | rfl | (exfalso; simp_all)

theorem hProofRead_spec {A : Alloc} {d : Bytes} {r : Option Proof} (e : proofRead d = .ok r) :
    Triple emp (hProofRead A d) (hRead r) := by
  have bad : ∀ {r : Option Proof}, Res.ok none = Res.ok r → Triple emp (pure ([], none)) (hRead r) := by
    intro r e; cases e
    exact Triple.ret fun m hm => ⟨[], lpure_sep.2 ⟨rfl, hm⟩⟩
  unfold proofRead at e
  unfold hProofRead
  by_cases h0 : d.length < 4
  · rw [if_pos h0] at e ⊢
    exact bad e
  rw [if_neg h0] at e ⊢
  obtain ⟨⟨f, d1⟩, e1, e⟩ := Res.bind_eq_ok.1 e
  obtain ⟨⟨c, d2⟩, e2, e⟩ := Res.bind_eq_ok.1 e
  refine Triple.lift e1 ?_
  refine Triple.lift e2 ?_
  dsimp only at e ⊢
  by_cases h1 : leNat f &&& 16383 > keyBits
  · rw [if_pos h1] at e ⊢; exact bad e
  rw [if_neg h1] at e ⊢
  by_cases h2 : leNat c > keyBits
  · rw [if_pos h2] at e ⊢; exact bad e
  rw [if_neg h2] at e ⊢
  by_cases h3 : d2.length < (leNat c + 7) / 8
  · rw [if_pos h3] at e ⊢; exact bad e
  rw [if_neg h3] at e ⊢
  obtain ⟨⟨bm, d3⟩, e3, e⟩ := Res.bind_eq_ok.1 e
  refine Triple.lift e3 ?_
  obtain ⟨o, e4, e⟩ := Res.bind_eq_ok.1 e
  refine Triple.bind (hProofReadNodes_spec _ _ _ _ e4) (R := emp) (by rw [emp_sep]) fun x => ?_
  obtain ⟨as, o'⟩ := x
  rw [sep_emp]
  cases o with
  | none =>
    cases e
    unfold hNodes
    refine Triple.ex_pre fun ns => ?_
    refine Triple.pure_pre fun ho => ?_
    dsimp only at ho
    subst ho
    exact Triple.ret fun m hm => ⟨ns, lpure_sep.2 ⟨rfl, hm⟩⟩
  | some y =>
    obtain ⟨ns, d4⟩ := y
    unfold hNodes
    refine Triple.pure_pre fun ho => ?_
    dsimp only at ho
    subst ho
    dsimp only at e ⊢
    have e' := (proofReadBody_eq (leNat f >>> 14) (leNat f &&& 16383) ns d4).trans e
    obtain ⟨b, e5, e6⟩ := Res.bind_eq_ok.1 e'
    refine Triple.lift e5 ?_
    cases b with
    | none =>
      cases e6
      exact Triple.ret fun m hm => ⟨ns, lpure_sep.2 ⟨rfl, hm⟩⟩
    | some body =>
      cases e6
      exact Triple.ret fun m hm => lpure_sep.2 ⟨rfl, hm⟩

/-- A proof that can be read. -/
theorem hVerify_read {A : Alloc} {H : HashFn} {raw : Bytes} {key root : B32} {p : Proof} {out : VerifyOut} (e : proofRead raw = .ok (some p))
    (ev : urkelVerify H raw key root = .ok out) : Triple emp (hVerify A H raw key root) (fun x => lpure (x = out) ∗∗ emp) := by
  unfold urkelVerify at ev
  rw [e, Res.bind_ok] at ev
  dsimp only at ev
  unfold hVerify
  refine Triple.bind (hProofRead_spec e) (R := emp) (by rw [emp_sep]) fun x => ?_
  obtain ⟨as, o⟩ := x
  rw [sep_emp]
  unfold hRead
  refine Triple.pure_pre fun ho => ?_
  dsimp only at ho
  subst ho
  dsimp only
  refine Triple.call (loadProof_spec as p.nodes) (by frames) ?_
  have : ∃ ret, catchErr (proofVerify H ⟨p.depth, p.nodes, p.body⟩ key root) = .ok ret ∧ verifyOut p.body ret = out := by
    show ∃ ret, catchErr (proofVerify H p key root) = .ok ret ∧ verifyOut p.body ret = out
    cases hv : proofVerify H p key root with
    | ok u =>
      rw [hv] at ev
      dsimp only at ev
      refine ⟨_, rfl, ?_⟩
      unfold verifyOut
      cases hb : p.body <;> rw [hb] at ev <;> cases ev <;> rfl
    | err er => rw [hv] at ev; cases ev; exact ⟨_, rfl, rfl⟩
    | abort => rw [hv] at ev; cases ev
    | ub => rw [hv] at ev; cases ev
  obtain ⟨ret, e2, hout⟩ := this
  refine Triple.lift e2 ?_
  refine Triple.bind (hProofClear_spec as p.nodes) (by frames) fun _ => ?_
  refine Triple.ret fun m hm => lpure_sep.2 ⟨hout, ?_⟩
  perm hm

/-- A proof that cannot be read. -/
theorem hVerify_bad {A : Alloc} {H : HashFn} {raw : Bytes} {key root : B32} (e : proofRead raw = .ok none) :
    Triple emp (hVerify A H raw key root) (fun x => ex fun as => ex fun ns => lpure (x = ⟨.error .EINVAL, false, []⟩) ∗∗ ownP as ns) := by
  unfold hVerify
  refine Triple.bind (hProofRead_spec e) (R := emp) (by rw [emp_sep]) fun x => ?_
  obtain ⟨as, o⟩ := x
  rw [sep_emp]
  unfold hRead
  refine Triple.ex_pre fun ns => ?_
  refine Triple.pure_pre fun ho => ?_
  dsimp only at ho
  subst ho
  exact Triple.ret fun m hm => ⟨as, ns, lpure_sep.2 ⟨rfl, hm⟩⟩

/-! ### What is left behind -/

theorem HM.lift_bind {α β : Type} {r : Res α} {x : α} {k : α → HM β} (e : r = .ok x) : (HM.lift r >>= k) = k x := by
  subst e; rfl

theorem hProofReadNodes_grow {A : Alloc} {bm : Bytes} : ∀ (n i : Nat) (d : Bytes) (ns : List PNode) (rest : Bytes) (heap : Heap),
    proofReadNodes bm n i d = .ok (some (ns, rest)) →
    ∃ as new, hProofReadNodes A bm n i d heap = .ok ((as, some rest), new ++ heap) ∧ new.length = ns.length := by
  intro n
  induction n with
  | zero => intro i d ns rest heap e; cases e; exact ⟨[], [], rfl, rfl⟩
  | succ n ih =>
    intro i d ns rest heap e
    unfold proofReadNodes at e
    obtain ⟨bit, e1, e⟩ := Res.bind_eq_ok.1 e
    have e' : ((if bit then readPrefix d else do
        let b ← bitsInit 0
        pure (some (b, d))) >>= fun r => match r with
      | none => pure none
      | some (pre, d) =>
        if d.length < 32 then pure none
        else do
          let (h, d) ← take32 d
          check (i < keyBits)
          let rest ← proofReadNodes bm n (i + 1) d
          match rest with
          | none => pure none
          | some (ns, d) => pure (some (⟨pre, h⟩ :: ns, d))) = Res.ok (some (ns, rest)) := by
      rw [← e]; cases bit <;> rfl
    obtain ⟨o, e2, e3⟩ := Res.bind_eq_ok.1 e'
    unfold hProofReadNodes
    rw [HM.lift_bind e1, HM.lift_bind e2]
    cases o with
    | none => cases e3
    | some x =>
      obtain ⟨pre, d1⟩ := x
      dsimp only at e3 ⊢
      by_cases hl : d1.length < 32
      · rw [if_pos hl] at e3; cases e3
      · rw [if_neg hl] at e3 ⊢
        obtain ⟨⟨h, d2⟩, e4, e5⟩ := Res.bind_eq_ok.1 e3
        obtain ⟨u, e6, e7⟩ := Res.bind_eq_ok.1 e5
        obtain ⟨r, e8, e9⟩ := Res.bind_eq_ok.1 e7
        rw [HM.lift_bind e4]
        dsimp only
        rw [HM.lift_bind e6]
        cases r with
        | none => cases e9
        | some y =>
          obtain ⟨ns1, d3⟩ := y
          cases e9
          obtain ⟨as, new, e10, hnew⟩ := ih (i + 1) d2 ns1 rest ((A.pick heap, .pnode ⟨pre, h⟩) :: heap) e8
          refine ⟨A.pick heap :: as, new ++ [(A.pick heap, .pnode ⟨pre, h⟩)], ?_, by simp [hnew]⟩
          rw [HM.bind_of (m := malloc A (.pnode ⟨pre, h⟩)) (a := A.pick heap) (h' := (A.pick heap, .pnode ⟨pre, h⟩) :: heap) rfl,
            HM.bind_of e10]
          simp [pure]

theorem proofReadBody_extra {body : PBody} (hb : BodyOk body) {x : Bytes} (hx : x ≠ []) :
    proofReadBody body.type (encTail body ++ x) = .ok none := by
  have hx' : x.length ≠ 0 := fun e => hx (List.length_eq_zero_iff.1 e)
  cases body with
  | deadend => exact if_neg hx'
  | short pre l r =>
    simp only [PBody.type, proofReadBody, encTail, List.append_assoc, readPrefix_enc hb.1 hb.2, Res.bind_ok]
    rw [if_neg (by simp [l.len, r.len]; omega)]
    simp only [take32_append, Res.bind_ok]
    rw [if_neg hx']; rfl
  | collision k h =>
    simp only [PBody.type, proofReadBody, encTail, List.append_assoc]
    rw [if_neg (by simp [k.len, h.len]; omega)]
    simp only [take32_append, Res.bind_ok]
    rw [if_neg hx']; rfl
  | «exists» v =>
    have hv : v.length ≤ 1023 := hb
    have hvl : leNat (leBytes 2 v.length) = v.length := by
      rw [leNat_leBytes]; apply Nat.mod_eq_of_lt; omega
    simp only [PBody.type, proofReadBody, encTail, List.append_assoc]
    rw [if_neg (by simp)]
    simp only [takeN_leBytes, Res.bind_ok, hvl]
    rw [if_neg (by simp), if_neg (by unfold valueSize; omega), takeN_append _ _ rfl]
    simp only [Res.bind_ok]
    rw [if_neg hx']; rfl

/-- A readable proof with bytes after its end. -/
theorem hVerify_extra {A : Alloc} {H : HashFn} {raw x : Bytes} {key root : B32} {p : Proof} (e : proofRead raw = .ok (some p)) (hx : x ≠ [])
    (heap : Heap) : ∃ new, hVerify A H (raw ++ x) key root heap = .ok (⟨.error .EINVAL, false, []⟩, new ++ heap) ∧ new.length = p.nodes.length := by
  obtain ⟨o, e', ho⟩ := proofRead_total raw
  obtain rfl : o = some p := by rw [e] at e'; cases e'; rfl
  obtain ⟨h, bm, hbm, hfl2, rfl⟩ := ho p rfl
  have hc := h.count; have hdep := h.depth; have hty := type_lt p.body
  have hbody := h.body
  have hfl : (leNat (leBytes 2 (p.body.type <<< 14 ||| p.depth))) = p.body.type <<< 14 ||| p.depth := by
    rw [leNat_leBytes]; apply Nat.mod_eq_of_lt; rw [field_eq (by omega)]; omega
  have hcl : leNat (leBytes 2 p.nodes.length) = p.nodes.length := by
    rw [leNat_leBytes]; apply Nat.mod_eq_of_lt; omega
  have hn := proofReadNodes_enc h.nodes bm 0 (encTail p.body ++ x) (by rw [List.drop_zero, ← hfl2]; exact List.take_prefix _ _) (by omega)
  obtain ⟨as, new, e1, hnew⟩ := hProofReadNodes_grow (A := A) _ _ _ _ _ heap hn
  refine ⟨new, ?_, hnew⟩
  have er : encProofWith p bm ++ x = leBytes 2 (p.body.type <<< 14 ||| p.depth) ++ (leBytes 2 p.nodes.length ++
      (bm ++ (p.nodes.flatMap encNode ++ (encTail p.body ++ x)))) := by
    simp [encProofWith]
  have e2 : hProofRead A (encProofWith p bm ++ x) heap = .ok ((as, none), new ++ heap) := by
    rw [er, hProofRead, if_neg (by simp; omega), HM.lift_bind (takeN_leBytes _ _ _)]
    dsimp only
    rw [HM.lift_bind (takeN_leBytes _ _ _)]
    dsimp only
    rw [hfl, hcl, field_type (show p.depth < 16384 by omega), field_depth (show p.depth < 16384 by omega),
      if_neg (by unfold keyBits; omega), if_neg (by unfold keyBits; omega), if_neg (by simp [hbm]),
      HM.lift_bind (takeN_append _ _ hbm)]
    dsimp only
    rw [HM.bind_of e1]
    dsimp only
    rw [HM.lift_bind (proofReadBody_extra hbody hx)]
    rfl
  unfold hVerify
  rw [HM.bind_of e2]
  rfl

end Urkel
