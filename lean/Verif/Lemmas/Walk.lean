import Verif.Spec.Walk
import Verif.Lemmas.Damage
/-
Iterating over any database.
-/
namespace Urkel

section
variable {s : Store}

/-- Frames below the top of the stack. -/
def Mid (f : Frame) : Prop :=
  match f.node with
  | .internal .. => Fit f.node ∧ (f.child = 1 ∨ f.child = 2)
  | .hash .. => f.child = 1
  | _ => False

/-- What the frame has left. -/
def frameLeft (s : Store) (f : Frame) (room : Nat) : List Ev :=
  match f.node with
  | .internal _ _ _ _ r => if f.child = 1 then walk s room r else []
  | _ => []

/-- What the stack has left. -/
def pending (s : Store) : List Frame → List Ev
  | [] => []
  | f :: fs => frameLeft s f (255 - fs.length) ++ pending s fs

/-- The iterator after a call that did `ev`. -/
def Did (s : Store) (it : Iter) (r : Except Err Unit) : Ev → Prop
  | .pair k x => r = .ok () ∧ ∃ h p v vp, it.node = some (.leaf h p k v vp) ∧ storeRetrieve s v vp = .ok (some x)
  | .corrupt => r = .error .ECORRUPTION ∨ (r = .ok () ∧ ∃ h p k v vp, it.node = some (.leaf h p k v vp) ∧ storeRetrieve s v vp = .ok none)
  | .abort => False

/-- A node just pushed. -/
def Fresh (s : Store) (fuel : Nat) (it : Iter) (fs : List Frame) : List Ev → Prop
  | [] => False
  | .abort :: _ => seekLoop s fuel it = .abort
  | ev :: tl => ∃ it' r g gs, seekLoop s fuel it = .ok (it', r) ∧ it'.stack = g :: (gs ++ fs) ∧ it'.done = it.done ∧ it'.root = it.root ∧
      Did s it' r ev ∧ (∀ f ∈ gs, Mid f) ∧ gs.length + fs.length ≤ 255 ∧ pending s (gs ++ fs) = tl ++ pending s fs

theorem Fresh.of_not {fuel : Nat} {it : Iter} {fs : List Frame} {ev : Ev} {tl : List Ev} (hev : ev ≠ .abort)
    (h : ∃ it' r g gs, seekLoop s fuel it = .ok (it', r) ∧ it'.stack = g :: (gs ++ fs) ∧ it'.done = it.done ∧ it'.root = it.root ∧
      Did s it' r ev ∧ (∀ f ∈ gs, Mid f) ∧ gs.length + fs.length ≤ 255 ∧ pending s (gs ++ fs) = tl ++ pending s fs) : Fresh s fuel it fs (ev :: tl) := by
  cases ev with
  | abort => exact absurd rfl hev
  | pair k v => exact h
  | corrupt => exact h

/-- From the frame above to this one. -/
theorem Fresh.up {fuel : Nat} {it it1 : Iter} {f : Frame} {fs : List Frame} {evs more : List Ev} (h : Fresh s fuel it1 (f :: fs) evs)
    (he : seekLoop s (fuel + 1) it = seekLoop s fuel it1) (hd : it1.done = it.done) (hr : it1.root = it.root) (hm : Mid f)
    (hp : frameLeft s f (255 - fs.length) = more) : Fresh s (fuel + 1) it fs (evs ++ more) := by
  cases evs with
  | nil => exact h.elim
  | cons ev tl =>
    by_cases hev : ev = .abort
    · subst hev; show seekLoop s (fuel + 1) it = .abort; rw [he]; exact h
    · have h' : ∃ it' r g gs, seekLoop s fuel it1 = .ok (it', r) ∧ it'.stack = g :: (gs ++ f :: fs) ∧ it'.done = it1.done ∧ it'.root = it1.root ∧
          Did s it' r ev ∧ (∀ f ∈ gs, Mid f) ∧ gs.length + (f :: fs).length ≤ 255 ∧ pending s (gs ++ f :: fs) = tl ++ pending s (f :: fs) := by
        cases ev with
        | abort => exact absurd rfl hev
        | pair k v => exact h
        | corrupt => exact h
      obtain ⟨it', r, g, gs, h1, h2, h3, h4, h5, h6, h7, h8⟩ := h'
      refine Fresh.of_not hev ⟨it', r, g, gs ++ [f], by rw [he]; exact h1, by rw [h2]; simp, by rw [h3, hd], by rw [h4, hr], h5, ?_, ?_, ?_⟩
      · intro x hx
        rcases List.mem_append.1 hx with hx | hx
        · exact h6 x hx
        · rw [List.mem_singleton.1 hx]; exact hm
      · simp at h7 ⊢; omega
      · rw [List.append_assoc]
        show pending s (gs ++ (f :: fs)) = _
        rw [h8, pending, hp]; exact (List.append_assoc ..).symm

theorem seek_fresh : ∀ (room : Nat) (n : Node) (d : Nat) (res : Bool) (fs : List Frame) (it : Iter) (fuel : Nat), Fit n → n ≠ .null →
    fs.length + room = 255 → it.stack = ⟨n, d, res, 0⟩ :: fs → room + 1 ≤ fuel → Fresh s fuel it fs (walk s (room + 1) n) := by
  intro room
  induction room with
  | zero =>
    intro n d res fs it fuel hf hn hl hst hfu
    obtain ⟨fuel, rfl⟩ : ∃ f, fuel = f + 1 := ⟨fuel - 1, by omega⟩
    have full : ∀ (f : Frame) (x : Node) (d : Nat) (b : Bool), iterPush { it with stack := f :: fs } x d b = .abort := by
      intro f x d b
      unfold iterPush
      have : ¬ fs.length + 1 < keyBits := by unfold keyBits; omega
      simp only [List.length_cons, this, decide_false]
      rfl
    cases n with
    | null => exact absurd rfl hn
    | leaf h p k v vp =>
      obtain ⟨r, e⟩ := storeRetrieve_safe (s := s) hf.2
      have e1 : seekLoop s (fuel + 1) it = .ok ({ it with node := some (.leaf h p k v vp) }, .ok ()) := by rw [seekLoop, hst]
      rw [walk, e]
      cases r with
      | none => exact ⟨_, _, ⟨_, d, res, 0⟩, [], e1, hst, rfl, rfl, .inr ⟨rfl, _, _, _, _, _, rfl, e⟩, by simp, by simp; omega, rfl⟩
      | some x => exact ⟨_, _, ⟨_, d, res, 0⟩, [], e1, hst, rfl, rfl, ⟨rfl, _, _, _, _, rfl, e⟩, by simp, by simp; omega, rfl⟩
    | internal h p pre l r =>
      rw [walk, walk]
      show seekLoop s (fuel + 1) it = .abort
      rw [seekLoop, hst]
      dsimp only
      rw [if_neg (by omega), full]; rfl
    | hash h p =>
      rw [walk]
      rcases storeResolve_cases s h p with ⟨e', _⟩ | ⟨_, e' | ⟨n0, e', hfit, hl'⟩⟩
      · rw [e']
        show seekLoop s (fuel + 1) it = .abort
        rw [seekLoop, hst]
        dsimp only
        rw [if_neg (by omega), e']; rfl
      · rw [e']
        refine ⟨{ it with stack := ⟨.hash h p, d, res, 1⟩ :: fs }, .error .ECORRUPTION, ⟨.hash h p, d, res, 1⟩, [], ?_, rfl, rfl, rfl, .inl rfl, by simp, by simp; omega, rfl⟩
        rw [seekLoop, hst]
        dsimp only
        rw [if_neg (by omega), e']; rfl
      · rw [e']
        dsimp only
        rw [walk]
        show seekLoop s (fuel + 1) it = .abort
        rw [seekLoop, hst]
        dsimp only
        rw [if_neg (by omega), e', Res.bind_ok]
        dsimp only
        rw [full]; rfl
  | succ room ih =>
    intro n d res fs it fuel hf hn hl hst hfu
    obtain ⟨fuel, rfl⟩ : ∃ f, fuel = f + 1 := ⟨fuel - 1, by omega⟩
    have push : ∀ (f : Frame) (x : Node) (d : Nat) (b : Bool), iterPush { it with stack := f :: fs } x d b = .ok { it with stack := ⟨x, d, b, 0⟩ :: f :: fs } := by
      intro f x d b
      unfold iterPush
      have : fs.length + 1 < keyBits := by unfold keyBits; omega
      simp only [List.length_cons, this, decide_true, check_true]
      rfl
    cases n with
    | null => exact absurd rfl hn
    | leaf h p k v vp =>
      obtain ⟨r, e⟩ := storeRetrieve_safe (s := s) hf.2
      have e1 : seekLoop s (fuel + 1) it = .ok ({ it with node := some (.leaf h p k v vp) }, .ok ()) := by rw [seekLoop, hst]
      rw [walk, e]
      cases r with
      | none => exact ⟨_, _, ⟨_, d, res, 0⟩, [], e1, hst, rfl, rfl, .inr ⟨rfl, _, _, _, _, _, rfl, e⟩, by simp, by simp; omega, rfl⟩
      | some x => exact ⟨_, _, ⟨_, d, res, 0⟩, [], e1, hst, rfl, rfl, ⟨rfl, _, _, _, _, rfl, e⟩, by simp, by simp; omega, rfl⟩
    | internal h p pre l r =>
      rw [walk]
      refine Fresh.up (it1 := { it with stack := ⟨l, d + pre.size + 1, false, 0⟩ :: ⟨.internal h p pre l r, d, res, 1⟩ :: fs })
        (ih l _ false (⟨.internal h p pre l r, d, res, 1⟩ :: fs) _ fuel hf.2.2.2.1 hf.2.1 (by simp; omega) rfl (by omega)) ?_ rfl rfl ⟨hf, .inl rfl⟩ ?_
      · rw [seekLoop, hst]
        dsimp only
        rw [if_neg (by omega), push]; rfl
      · unfold frameLeft
        dsimp only
        rw [if_pos rfl]
        congr 1; omega
    | hash h p =>
      rw [walk]
      rcases storeResolve_cases s h p with ⟨e', _⟩ | ⟨_, e' | ⟨n0, e', hfit, hl'⟩⟩
      · rw [e']
        show seekLoop s (fuel + 1) it = .abort
        rw [seekLoop, hst]
        dsimp only
        rw [if_neg (by omega), e']; rfl
      · rw [e']
        refine ⟨{ it with stack := ⟨.hash h p, d, res, 1⟩ :: fs }, .error .ECORRUPTION, ⟨.hash h p, d, res, 1⟩, [], ?_, rfl, rfl, rfl, .inl rfl, by simp, by simp; omega, rfl⟩
        rw [seekLoop, hst]
        dsimp only
        rw [if_neg (by omega), e']; rfl
      · rw [e']
        dsimp only
        have hnn : n0 ≠ .null := by rintro rfl; exact hl'.elim
        have := Fresh.up (more := []) (it := it) (it1 := { it with stack := ⟨n0, d, true, 0⟩ :: ⟨.hash h p, d, res, 1⟩ :: fs })
          (ih n0 _ true (⟨.hash h p, d, res, 1⟩ :: fs) _ fuel hfit hnn (by simp; omega) rfl (by omega)) ?_ rfl rfl rfl rfl
        · rwa [List.append_nil] at this
        · rw [seekLoop, hst]
          dsimp only
          rw [if_neg (by omega), e', Res.bind_ok]
          dsimp only
          rw [push]; rfl

/-- The result of an event. -/
def Ev.ret : Ev → Except Err (B32 × Bytes)
  | .pair k v => .ok (k, v)
  | _ => .error .ECORRUPTION

/-- Between two calls `l` is still to come. -/
def Left (s : Store) (it : Iter) (l : List Ev) : Prop :=
  (it.done = true ∧ l = []) ∨
  (it.done = false ∧ it.stack = [] ∧ Fit it.root ∧ l = walk s 256 it.root) ∨
  (it.done = false ∧ ∃ g st, it.stack = g :: st ∧ (∀ f ∈ st, Mid f) ∧ st.length ≤ 255 ∧ pending s st = l)

/-- One call. -/
def Steps (s : Store) (fuel : Nat) (it : Iter) : List Ev → Prop
  | [] => ∃ it', nextLoop s fuel it = .ok (it', .error .EITEREND) ∧ it'.done = true
  | .abort :: _ => nextLoop s fuel it = .abort
  | ev :: tl => ∃ it', nextLoop s fuel it = .ok (it', ev.ret) ∧ Left s it' tl

/-- `iterSeek` came to a fresh node. -/
theorem Fresh.steps {it it1 : Iter} {fs : List Frame} {evs : List Ev} {fuel : Nat} (h : Fresh s iterFuel it1 fs evs) (hd : it1.done = false)
    (hm : ∀ f ∈ fs, Mid f) (he : iterSeek s it = seekLoop s iterFuel it1) : Steps s (fuel + 1) it (evs ++ pending s fs) := by
  cases evs with
  | nil => exact h.elim
  | cons ev tl =>
    by_cases hev : ev = .abort
    · subst hev
      show nextLoop s (fuel + 1) it = .abort
      rw [nextLoop, he]
      have h' : seekLoop s iterFuel it1 = .abort := h
      rw [h']; rfl
    · have h' : ∃ it' r g gs, seekLoop s iterFuel it1 = .ok (it', r) ∧ it'.stack = g :: (gs ++ fs) ∧ it'.done = it1.done ∧ it'.root = it1.root ∧
          Did s it' r ev ∧ (∀ f ∈ gs, Mid f) ∧ gs.length + fs.length ≤ 255 ∧ pending s (gs ++ fs) = tl ++ pending s fs := by
        cases ev with
        | abort => exact absurd rfl hev
        | pair k v => exact h
        | corrupt => exact h
      obtain ⟨it', r, g, gs, h1, h2, h3, h4, h5, h6, h7, h8⟩ := h'
      have hl : Left s it' (tl ++ pending s fs) := by
        refine .inr (.inr ⟨by rw [h3, hd], g, gs ++ fs, h2, ?_, by simpa using h7, h8⟩)
        intro x hx
        rcases List.mem_append.1 hx with hx | hx
        · exact h6 x hx
        · exact hm x hx
      have hs : ∃ it', nextLoop s (fuel + 1) it = .ok (it', ev.ret) ∧ Left s it' (tl ++ pending s fs) := by
        cases ev with
        | abort => exact absurd rfl hev
        | pair k x =>
          obtain ⟨rfl, h, p, v, vp, e1, e2⟩ := h5
          refine ⟨it', ?_, hl⟩
          rw [nextLoop, he, h1, Res.bind_ok]
          dsimp only
          rw [e1]
          dsimp only
          rw [e2]; rfl
        | corrupt =>
          refine ⟨it', ?_, hl⟩
          rcases h5 with rfl | ⟨rfl, h, p, k, v, vp, e1, e2⟩
          · rw [nextLoop, he, h1]; rfl
          · rw [nextLoop, he, h1, Res.bind_ok]
            dsimp only
            rw [e1]
            dsimp only
            rw [e2]; rfl
      cases ev with
      | abort => exact absurd rfl hev
      | pair k x => exact hs
      | corrupt => exact hs

theorem nextLoop_left : ∀ (st : List Frame) (g : Frame) (it : Iter) (fuel : Nat), it.done = false → it.stack = g :: st → (∀ f ∈ st, Mid f) → st.length ≤ 255 →
    st.length + 1 ≤ fuel → Steps s fuel it (pending s st) := by
  intro st
  induction st with
  | nil =>
    intro g it fuel hd hst hm hl hf
    obtain ⟨fuel, rfl⟩ : ∃ f, fuel = f + 1 := ⟨fuel - 1, by omega⟩
    refine ⟨{ it with node := none, stack := [], done := true }, ?_, rfl⟩
    rw [nextLoop, iterSeek]
    dsimp only
    rw [hd, hst]; rfl
  | cons f fs ih =>
    intro g it fuel hd hst hm hl hf
    obtain ⟨fuel, rfl⟩ : ∃ f, fuel = f + 1 := ⟨fuel - 1, by omega⟩
    have hmf := hm f (List.mem_cons_self ..)
    have hseek : iterSeek s it = seekLoop s iterFuel { it with node := none, stack := f :: fs } := by
      rw [iterSeek]
      dsimp only
      rw [hd, hst]; rfl
    -- the frame has nothing left
    have skip : seekLoop s iterFuel { it with node := none, stack := f :: fs } = .ok ({ it with node := none, stack := f :: fs }, .ok ()) →
        frameLeft s f (255 - fs.length) = [] → Steps s (fuel + 1) it (pending s (f :: fs)) := by
      intro e hp
      have i := ih f { it with node := none, stack := f :: fs } fuel hd rfl (fun x hx => hm x (List.mem_cons_of_mem _ hx)) (by simp at hl; omega) (by simp at hf; omega)
      have en : nextLoop s (fuel + 1) it = nextLoop s fuel { it with node := none, stack := f :: fs } := by
        rw [nextLoop, hseek, e, Res.bind_ok]
      rw [pending, hp, List.nil_append]
      generalize pending s fs = l at i
      match l, i with
      | [], i => unfold Steps at i ⊢; rw [en]; exact i
      | .abort :: _, i => unfold Steps at i ⊢; rw [en]; exact i
      | .pair _ _ :: _, i => unfold Steps at i ⊢; rw [en]; exact i
      | .corrupt :: _, i => unfold Steps at i ⊢; rw [en]; exact i
    obtain ⟨n, d, res, c⟩ := f
    cases n with
    | null => exact hmf.elim
    | leaf => exact hmf.elim
    | hash h p =>
      have hc : c = 1 := hmf
      subst hc
      exact skip rfl rfl
    | internal h p pre l r =>
      obtain ⟨hfit, hc⟩ := hmf
      dsimp only at hfit hc
      rcases hc with rfl | rfl
      · have hlen : fs.length + 1 ≤ 255 := by simpa using hl
        have push : iterPush { it with node := none, stack := ⟨.internal h p pre l r, d, res, 2⟩ :: fs } r (d + pre.size + 1) false =
            .ok { it with node := none, stack := ⟨r, d + pre.size + 1, false, 0⟩ :: ⟨.internal h p pre l r, d, res, 2⟩ :: fs } := by
          unfold iterPush
          have : fs.length + 1 < keyBits := by unfold keyBits; omega
          simp only [List.length_cons, this, decide_true, check_true]
          rfl
        have e1 : seekLoop s iterFuel { it with node := none, stack := ⟨.internal h p pre l r, d, res, 1⟩ :: fs } =
            seekLoop s 599 { it with node := none, stack := ⟨r, d + pre.size + 1, false, 0⟩ :: ⟨.internal h p pre l r, d, res, 2⟩ :: fs } := by
          show seekLoop s (599 + 1) _ = _
          rw [seekLoop]
          dsimp only
          rw [if_neg (by omega)]
          show (iterPush { it with node := none, stack := ⟨.internal h p pre l r, d, res, 2⟩ :: fs } r (d + pre.size + 1) false >>= _) = _
          rw [push]; rfl
        have fr := seek_fresh (s := s) (254 - fs.length) r (d + pre.size + 1) false (⟨.internal h p pre l r, d, res, 2⟩ :: fs)
          { it with node := none, stack := ⟨r, d + pre.size + 1, false, 0⟩ :: ⟨.internal h p pre l r, d, res, 2⟩ :: fs } 599
          hfit.2.2.2.2 hfit.2.2.1 (by simp; omega) rfl (by omega)
        have fr2 := fr.up (it := { it with node := none, stack := ⟨.internal h p pre l r, d, res, 1⟩ :: fs }) (more := []) e1 rfl rfl ⟨hfit, .inr rfl⟩ rfl
        rw [List.append_nil] at fr2
        have hp : pending s (⟨.internal h p pre l r, d, res, 1⟩ :: fs) = walk s (254 - fs.length + 1) r ++ pending s fs := by
          rw [pending]
          unfold frameLeft
          dsimp only
          rw [if_pos rfl]
          congr 2; omega
        rw [hp]
        exact Fresh.steps fr2 hd (fun x hx => hm x (List.mem_cons_of_mem _ hx)) hseek
      · exact skip rfl rfl

theorem iterNext_left {it : Iter} {l : List Ev} (h : Left s it l) : Steps s iterFuel it l := by
  rcases h with ⟨hd, rfl⟩ | ⟨hd, hst, hf, rfl⟩ | ⟨hd, g, st, hst, hm, hl, rfl⟩
  · refine ⟨{ it with node := none }, ?_, hd⟩
    show nextLoop s (599 + 1) it = _
    rw [nextLoop, iterSeek]
    dsimp only
    rw [hd]; rfl
  · obtain ⟨root, nd, stack, done⟩ := it
    dsimp only at hd hst hf ⊢
    subst hd hst
    have hseek : iterSeek s ⟨root, nd, [], false⟩ = seekLoop s iterFuel ⟨root, none, [⟨root, 0, false, 0⟩], false⟩ := rfl
    by_cases hn : root = .null
    · subst hn
      exact ⟨⟨.null, none, [], true⟩, rfl, rfl⟩
    · have fr := seek_fresh (s := s) 255 root 0 false [] ⟨root, none, [⟨root, 0, false, 0⟩], false⟩ iterFuel hf hn rfl rfl (by decide)
      have := Fresh.steps (fuel := 599) fr rfl (fun x hx => absurd hx (List.not_mem_nil)) hseek
      rwa [pending, List.append_nil] at this
  · exact nextLoop_left st g it iterFuel hd hst hm hl (by unfold iterFuel; omega)

theorem played_zero (l : List Ev) : played l 0 = .ok [] := by simp [played]

theorem played_abort (l : List Ev) (m : Nat) : played (.abort :: l) (m + 1) = .abort := by simp [played, Ev.fatal]

theorem played_nil (m : Nat) : played [] m = .ok (List.replicate m (.error .EITEREND)) := by
  unfold played
  rw [List.take_nil, List.any_nil, if_neg (by decide)]
  congr 1
  induction m with
  | zero => rfl
  | succ m ih => rw [List.range_succ, List.map_append, ih, List.replicate_succ']; rfl

theorem played_cons {ev : Ev} (hev : ev ≠ .abort) (l : List Ev) (m : Nat) :
    played (ev :: l) (m + 1) = (played l m >>= fun rs => pure (ev.ret :: rs)) := by
  have h1 : ev.fatal = false := by cases ev <;> first | rfl | exact absurd rfl hev
  unfold played
  rw [List.take_succ_cons, List.any_cons, h1, Bool.false_or]
  by_cases h : (l.take m).any Ev.fatal = true
  · rw [if_pos h, if_pos h]; rfl
  · rw [if_neg h, if_neg h, Res.bind_ok, List.range_succ_eq_map, List.map_cons, List.map_map]
    cases ev <;> first | rfl | exact absurd rfl hev

/-- The whole iteration. -/
theorem iterCalls_left {db : Db} : ∀ (m : Nat) (it : Iter) (l : List Ev), Left db.store it l → iterCalls it (List.replicate m db) = played l m := by
  intro m
  induction m with
  | zero => intro it l _; rw [played_zero]; rfl
  | succ m ih =>
    intro it l h
    have st := iterNext_left h
    rw [List.replicate_succ, iterCalls]
    match l, st with
    | [], ⟨it', e, hd⟩ =>
      rw [iterNext, e, Res.bind_ok]
      dsimp only
      rw [ih it' [] (.inl ⟨hd, rfl⟩), played_nil, played_nil]; rfl
    | .abort :: tl, e =>
      have e' : nextLoop db.store iterFuel it = .abort := e
      rw [iterNext, e', played_abort]; rfl
    | .pair k v :: tl, ⟨it', e, hl⟩ =>
      rw [iterNext, e, Res.bind_ok, played_cons (ev := .pair k v) (fun h => nomatch h)]
      dsimp only
      rw [ih it' tl hl]
    | .corrupt :: tl, ⟨it', e, hl⟩ =>
      rw [iterNext, e, Res.bind_ok, played_cons (ev := .corrupt) (fun h => nomatch h)]
      dsimp only
      rw [ih it' tl hl]

end

end Urkel
