import Verif.Lemmas.KhashMap
/-
Inserting and growing.
-/
namespace Urkel

variable {K V : Type} [DecidableEq K]

/-- The table after filling the free bucket `x`. -/
def Kh.fill (T : Kh K V) (x : Nat) (key : K) (v : V) : Kh K V :=
  { T with keys := fun j => if j = x then some key else T.keys j, vals := fun j => if j = x then some v else T.vals j,
           flags := T.flags.clearBits 3#32 x, size := T.size + 1, occ := T.occ + 1 }

theorem KInv.fill {hash : K → Nat} {T : Kh K V} {m : Nat} (h : KInv hash T m) {key : K} {v : V} {x : Nat}
    (hx : x < T.nb) (he : T.flags.isEmpty x = true) (hr : Reached T.flags.isEmpty T.nb (hash key) x)
    (ha : ∀ i < T.nb, T.flags.isEmpty i = false → T.keys i ≠ some key) (hub : T.occ < T.ub) :
    KInv hash (T.fill x key v) m ∧ ∀ k w, (T.fill x key v).Has k w ↔ T.Has k w ∨ (k = key ∧ w = v) := by
  have fe : ∀ j, (T.fill x key v).flags.isEmpty j = if j = x then false else T.flags.isEmpty j := fun j =>
    clearBits_empty T.flags 3#32 (by decide) (by decide) x j
  have fd : ∀ j, (T.fill x key v).flags.isDel j = false := fun j => by
    have := clearBits_del T.flags 3#32 (by decide) x j
    rw [h.nodel] at this
    show (T.flags.clearBits 3#32 x).isDel j = false
    rw [this]; split <;> simp
  have mono : ∀ j, T.flags.isEmpty j = false → (T.fill x key v).flags.isEmpty j = false := fun j hj => by
    rw [fe]; split <;> simp [hj]
  have ho : T.occ = T.size := h.occ
  have hu : T.size < T.ub := by omega
  constructor
  · refine ⟨h.lo, h.hi, h.nb, h.flen, h.cap, fd, ?_, ?_, ?_, by show T.occ + 1 = T.size + 1; omega, h.ub, by show T.size + 1 ≤ T.ub; omega⟩
    · intro i hi hf
      by_cases e : i = x
      · subst e
        exact ⟨key, v, by simp [Kh.fill], by simp [Kh.fill], hr.mono mono⟩
      · rw [fe, if_neg e] at hf
        obtain ⟨k, w, h1, h2, h3⟩ := h.full i hi hf
        exact ⟨k, w, by simp [Kh.fill, e, h1], by simp [Kh.fill, e, h2], h3.mono mono⟩
    · intro i hi j hj hfi hfj hk
      by_cases ei : i = x
      · by_cases ej : j = x
        · rw [ei, ej]
        · rw [fe, if_neg ej] at hfj
          simp only [Kh.fill, ei, ej, if_true, if_false] at hk
          exact (ha j hj hfj hk.symm).elim
      · rw [fe, if_neg ei] at hfi
        by_cases ej : j = x
        · simp only [Kh.fill, ei, ej, if_true, if_false] at hk
          exact (ha i hi hfi hk).elim
        · rw [fe, if_neg ej] at hfj
          simp only [Kh.fill, ei, ej, if_false] at hk
          exact h.dist i hi j hj hfi hfj hk
    · show T.size + 1 = _
      rw [h.size]
      refine (cnt_set hx ?_ ?_ ?_).symm
      · simp [he]
      · simp [fe]
      · intro j hj; simp [fe, hj]
  · intro k w
    constructor
    · rintro ⟨i, hi, hf, hk, hw⟩
      by_cases e : i = x
      · simp only [Kh.fill, e, if_true, Option.some.injEq] at hk hw
        exact Or.inr ⟨hk.symm, hw.symm⟩
      · rw [fe, if_neg e] at hf
        simp only [Kh.fill, e, if_false] at hk hw
        exact Or.inl ⟨i, hi, hf, hk, hw⟩
    · rintro (⟨i, hi, hf, hk, hw⟩ | ⟨rfl, rfl⟩)
      · have e : i ≠ x := fun e => by rw [e, he] at hf; cases hf
        exact ⟨i, hi, mono i hf, by simp [Kh.fill, e, hk], by simp [Kh.fill, e, hw]⟩
      · exact ⟨x, hx, by rw [fe, if_pos rfl], by simp [Kh.fill], by simp [Kh.fill]⟩

/-! ### Rehashing -/

/-- Buckets of the new table that are filled, and buckets of the old table still to be moved. -/
def Placed (nf : KFlags) (n i : Nat) : Prop := i < n ∧ nf.isEmpty i = false
def Pending (T : Kh K V) (i : Nat) : Prop := i < T.nb ∧ (!T.flags.isEmpty i && !T.flags.isDel i) = true

/-- The state while elements are moved; `hand` are those being moved, `C` the contents. -/
structure KRInv (hash : K → Nat) (m : Nat) (C : K → V → Prop) (size : Nat) (T : Kh K V) (nf : KFlags) (hand : List (K × V)) : Prop where
  hi : m ≤ 31
  nflen : nf.len = fsize (2 ^ m)
  nfdel : ∀ i, nf.isDel i = false
  oflen : 0 < T.nb → T.flags.len = fsize T.nb
  o16 : T.nb < 16 ∨ T.nb % 16 = 0
  capn : 2 ^ m ≤ T.cap
  capo : T.nb ≤ T.cap
  disj : ∀ i, Placed nf (2 ^ m) i → ¬ Pending T i
  placed : ∀ i, Placed nf (2 ^ m) i → ∃ k v, T.keys i = some k ∧ T.vals i = some v ∧ C k v ∧ Reached nf.isEmpty (2 ^ m) (hash k) i
  pending : ∀ i, Pending T i → ∃ k v, T.keys i = some k ∧ T.vals i = some v ∧ C k v
  hand_ok : ∀ k v, (k, v) ∈ hand → C k v
  all : ∀ k v, C k v → (∃ i, (Placed nf (2 ^ m) i ∨ Pending T i) ∧ T.keys i = some k ∧ T.vals i = some v) ∨ (k, v) ∈ hand
  dist : ∀ i j, (Placed nf (2 ^ m) i ∨ Pending T i) → (Placed nf (2 ^ m) j ∨ Pending T j) → T.keys i = T.keys j → i = j
  hdist : ∀ k v, (k, v) ∈ hand → ∀ i, (Placed nf (2 ^ m) i ∨ Pending T i) → T.keys i ≠ some k
  count : cnt (2 ^ m) (fun i => !nf.isEmpty i) + cnt T.nb (fun i => !T.flags.isEmpty i && !T.flags.isDel i) + hand.length = size
  hnodup : (hand.map Prod.fst).Nodup
  room : size < 2 ^ m

theorem probeEmpty_ok {nf : KFlags} {m : Nat} (hm : m ≤ 31) (hl : nf.len = fsize (2 ^ m)) (h : Nat) {e : Nat}
    (he : nf.isEmpty (probe (2 ^ m) h e) = true) (hpre : ∀ t < e, nf.isEmpty (probe (2 ^ m) h t) = false) :
    ∀ (fuel s : Nat), s ≤ e → e < s + fuel → probeEmpty nf (2 ^ m - 1) fuel (probe (2 ^ m) h s) s = .ok (probe (2 ^ m) h e) := by
  intro fuel
  induction fuel with
  | zero => intro s h1 h2; omega
  | succ fuel ih =>
    intro s h1 h2
    unfold probeEmpty
    rw [at_ok _ hl pow16 (probe_lt (Nat.two_pow_pos m) h s), Res.bind_ok]
    by_cases hs : s = e
    · subst hs; rw [he]; rfl
    · rw [hpre s (by omega)]
      simp only [Bool.false_eq_true, if_false]
      rw [probe_succ (by omega)]
      exact ih (s + 1) (by omega) (by omega)

theorem KRInv.live {hash : K → Nat} {m : Nat} {C : K → V → Prop} {size : Nat} {T : Kh K V} {nf : KFlags} {hand : List (K × V)}
    (h : KRInv hash m C size T nf hand) {i : Nat} (hi : i < T.nb) : T.live? i = .ok (!T.flags.isEmpty i && !T.flags.isDel i) :=
  at_ok _ (h.oflen (by omega)) h.o16 hi

/-- The old table without bucket `j`, whose element is now in hand. -/
theorem KRInv.take {hash : K → Nat} {m : Nat} {C : K → V → Prop} {size : Nat} {T : Kh K V} {nf : KFlags} {hand : List (K × V)}
    (h : KRInv hash m C size T nf hand) {j : Nat} (hj : Pending T j) {k : K} {v : V} (hk : T.keys j = some k) (hv : T.vals j = some v) :
    KRInv hash m C size { T with flags := T.flags.setBits 1#32 j } nf (hand ++ [(k, v)]) := by
  have pend : ∀ i, Pending { T with flags := T.flags.setBits 1#32 j } i ↔ Pending T i ∧ i ≠ j := by
    intro i
    unfold Pending
    dsimp only
    rw [setDel_empty, setDel_del]
    by_cases e : i = j
    · simp [e]
    · simp [e]
  obtain ⟨k', v', e1, e2, hc⟩ := h.pending j hj
  rw [hk] at e1; rw [hv] at e2; cases e1; cases e2
  refine ⟨h.hi, h.nflen, h.nfdel, h.oflen, h.o16, h.capn, h.capo, ?_, h.placed, ?_, ?_, ?_, ?_, ?_, ?_, ?_, h.room⟩
  · intro i hp hq; exact h.disj i hp ((pend i).1 hq).1
  · intro i hq; exact h.pending i ((pend i).1 hq).1
  · intro a b e
    rcases List.mem_append.1 e with e | e
    · exact h.hand_ok a b e
    · simp only [List.mem_singleton, Prod.mk.injEq] at e
      rw [e.1, e.2]; exact hc
  · intro a b hab
    rcases h.all a b hab with ⟨i, hi, ha, hb⟩ | hc
    · by_cases e : i = j
      · subst e
        rw [hk] at ha; rw [hv] at hb; cases ha; cases hb
        exact Or.inr (by simp)
      · refine Or.inl ⟨i, ?_, ha, hb⟩
        rcases hi with hi | hi
        · exact Or.inl hi
        · exact Or.inr ((pend i).2 ⟨hi, e⟩)
    · exact Or.inr (List.mem_append_left _ hc)
  · intro a b ha hb
    refine h.dist a b ?_ ?_
    · exact ha.imp_right fun h => ((pend a).1 h).1
    · exact hb.imp_right fun h => ((pend b).1 h).1
  · intro a b e i hi hki
    rcases List.mem_append.1 e with e | e
    · exact h.hdist a b e i (hi.imp_right fun h => ((pend i).1 h).1) hki
    simp only [List.mem_singleton, Prod.mk.injEq] at e
    obtain ⟨rfl, rfl⟩ := e
    have hne : i = j := h.dist i j (hi.imp_right fun h => ((pend i).1 h).1) (Or.inr hj) (hki.trans hk.symm)
    subst hne
    rcases hi with hi | hi
    · exact h.disj i hi hj
    · exact ((pend i).1 hi).2 rfl
  · have := h.count
    have hc : cnt T.nb (fun i => !T.flags.isEmpty i && !T.flags.isDel i) =
        cnt T.nb (fun i => !(T.flags.setBits 1#32 j).isEmpty i && !(T.flags.setBits 1#32 j).isDel i) + 1 := by
      refine cnt_set hj.1 ?_ hj.2 ?_
      · rw [setDel_del]; simp
      · intro i hi
        rw [setDel_empty, setDel_del, if_neg hi]
    rw [List.length_append]
    show _ + cnt T.nb (fun i => !(T.flags.setBits 1#32 j).isEmpty i && !(T.flags.setBits 1#32 j).isDel i) + (hand.length + 1) = size
    omega
  · rw [List.map_append, List.nodup_append]
    refine ⟨h.hnodup, by simp, fun a ha b hb e => ?_⟩
    simp only [List.map_cons, List.map_nil, List.mem_singleton] at hb
    obtain ⟨⟨a', w⟩, hm, rfl⟩ := List.mem_map.1 ha
    exact h.hdist a' w hm j (Or.inr hj) (by rw [hk]; exact congrArg some (e.trans hb).symm)

/-- Putting the element in hand into a free bucket whose old element, if any, is taken out. -/
theorem KRInv.put {hash : K → Nat} {m : Nat} {C : K → V → Prop} {size : Nat} {T : Kh K V} {nf : KFlags} {key : K} {val : V} {hand : List (K × V)}
    (h : KRInv hash m C size T nf ((key, val) :: hand)) {i : Nat} (hi : i < 2 ^ m) (he : nf.isEmpty i = true)
    (hr : Reached nf.isEmpty (2 ^ m) (hash key) i) (hq : ¬ Pending T i) :
    KRInv hash m C size { T with keys := fun j => if j = i then some key else T.keys j, vals := fun j => if j = i then some val else T.vals j }
      (nf.clearBits 2#32 i) hand := by
  have fe : ∀ j, (nf.clearBits 2#32 i).isEmpty j = if j = i then false else nf.isEmpty j := fun j =>
    clearBits_empty nf 2#32 (by decide) (by decide) i j
  have fd : ∀ j, (nf.clearBits 2#32 i).isDel j = false := fun j => by
    rw [clearBits_del nf 2#32 (by decide) i j, h.nfdel]; split <;> simp
  have mono : ∀ j, nf.isEmpty j = false → (nf.clearBits 2#32 i).isEmpty j = false := fun j hj => by
    rw [fe]; split <;> simp [hj]
  have pl : ∀ j, Placed (nf.clearBits 2#32 i) (2 ^ m) j ↔ j = i ∨ Placed nf (2 ^ m) j := by
    intro j
    unfold Placed
    rw [fe]
    by_cases e : j = i
    · subst e; simp [hi]
    · simp [e]
  have npl : ¬ Placed nf (2 ^ m) i := fun hp => by rw [hp.2] at he; cases he
  have ne : ∀ j, (Placed nf (2 ^ m) j ∨ Pending T j) → j ≠ i := fun j hj e => by
    subst e; rcases hj with hj | hj
    · exact npl hj
    · exact hq hj
  have or' : ∀ j, (Placed (nf.clearBits 2#32 i) (2 ^ m) j ∨ Pending T j) ↔ (j = i ∨ (Placed nf (2 ^ m) j ∨ Pending T j)) := by
    intro j; rw [pl]; exact or_assoc
  refine ⟨h.hi, h.nflen, fd, h.oflen, h.o16, h.capn, h.capo, ?_, ?_, ?_, (fun k v hm => h.hand_ok k v (List.mem_cons_of_mem _ hm)), ?_, ?_, ?_, ?_, (List.nodup_cons.1 h.hnodup).2, h.room⟩
  · intro j hp hq'
    have hq'' : Pending T j := hq'
    rcases (pl j).1 hp with e | hp
    · subst e; exact hq hq''
    · exact h.disj j hp hq''
  · intro j hp
    rcases (pl j).1 hp with e | hp
    · subst e
      exact ⟨key, val, by simp, by simp, h.hand_ok _ _ (List.mem_cons_self ..), hr.mono mono⟩
    · obtain ⟨k, v, h1, h2, h3, h4⟩ := h.placed j hp
      have := ne j (Or.inl hp)
      exact ⟨k, v, by simp [this, h1], by simp [this, h2], h3, h4.mono mono⟩
  · intro j hp
    have hp' : Pending T j := hp
    obtain ⟨k, v, h1, h2, h3⟩ := h.pending j hp'
    have := ne j (Or.inr hp')
    exact ⟨k, v, by simp [this, h1], by simp [this, h2], h3⟩
  · intro k v hkv
    rcases h.all k v hkv with ⟨j, hj, h1, h2⟩ | e
    · have := ne j hj
      exact Or.inl ⟨j, (or' j).2 (Or.inr hj), by simp [this, h1], by simp [this, h2]⟩
    · rcases List.mem_cons.1 e with e | e
      · cases e
        exact Or.inl ⟨i, (or' i).2 (Or.inl rfl), by simp, by simp⟩
      · exact Or.inr e
  · intro a b ha hb hab
    have ha' := (or' a).1 ha
    have hb' := (or' b).1 hb
    dsimp only at hab
    rcases ha' with ha' | ha'
    · rcases hb' with hb' | hb'
      · rw [ha', hb']
      · have := ne b hb'
        rw [if_pos ha', if_neg this] at hab
        exact (h.hdist _ _ (List.mem_cons_self ..) b hb' hab.symm).elim
    · have hna := ne a ha'
      rcases hb' with hb' | hb'
      · rw [if_neg hna, if_pos hb'] at hab
        exact (h.hdist _ _ (List.mem_cons_self ..) a ha' hab).elim
      · rw [if_neg hna, if_neg (ne b hb')] at hab
        exact h.dist a b ha' hb' hab
  · intro k v hm j hj hkj
    rcases (or' j).1 hj with e | hj
    · subst e
      simp only [if_true, Option.some.injEq] at hkj
      subst hkj
      exact (List.nodup_cons.1 h.hnodup).1 (List.mem_map.2 ⟨_, hm, rfl⟩)
    · have := ne j hj
      simp only [this, if_false] at hkj
      exact h.hdist k v (List.mem_cons_of_mem _ hm) j hj hkj
  · have hc : cnt (2 ^ m) (fun j => !(nf.clearBits 2#32 i).isEmpty j) = cnt (2 ^ m) (fun j => !nf.isEmpty j) + 1 := by
      refine cnt_set hi ?_ ?_ ?_
      · simp [he]
      · simp [fe]
      · intro j hj; simp [fe, hj]
    have := h.count
    rw [List.length_cons] at this
    rw [hc]
    show _ + 1 + cnt T.nb (fun i => !T.flags.isEmpty i && !T.flags.isDel i) + _ = _
    omega

theorem kickLoop_ok {hash : K → Nat} {m : Nat} {C : K → V → Prop} {size : Nat} : ∀ (fuel : Nat) {T : Kh K V} {nf : KFlags} {key : K} {val : V},
    KRInv hash m C size T nf [(key, val)] → cnt T.nb (fun i => !T.flags.isEmpty i && !T.flags.isDel i) < fuel →
    ∃ T' nf', kickLoop hash (2 ^ m - 1) fuel T nf key val = .ok (T', nf') ∧ KRInv hash m C size T' nf' [] ∧ T'.nb = T.nb ∧ T'.cap = T.cap ∧ T'.size = T.size ∧
      (∀ i, Pending T' i → Pending T i) := by
  intro fuel
  induction fuel with
  | zero => intro T nf key val _ h; omega
  | succ fuel ih =>
    intro T nf key val h hf
    have hpos : 0 < 2 ^ m := Nat.two_pow_pos m
    -- the free bucket
    have hfree : ∃ i < 2 ^ m, nf.isEmpty i = true := by
      have h1 := h.count; have h2 := h.room
      obtain ⟨i, hi, he⟩ := cnt_lt (n := 2 ^ m) (p := fun i => !nf.isEmpty i) (by omega)
      exact ⟨i, hi, by simpa using he⟩
    obtain ⟨e, h1, h2, h3⟩ := first_empty (hash key) hfree
    have hb := probe_lt hpos (hash key) e
    unfold kickLoop
    rw [probe_zero, probeEmpty_ok h.hi h.nflen (hash key) h2 h3 (2 ^ m - 1 + 2) 0 (by omega) (by omega), Res.bind_ok,
      at_ok _ h.nflen pow16 hb, Res.bind_ok]
    have hr : Reached nf.isEmpty (2 ^ m) (hash key) (probe (2 ^ m) (hash key) e) := ⟨e, h1, rfl, h3⟩
    generalize hi : probe (2 ^ m) (hash key) e = i at *
    by_cases hp : Pending T i
    · -- kick out
      obtain ⟨k, v, hk, hv, _⟩ := h.pending i hp
      have ht := h.take hp hk hv
      have hnp : ¬ Pending { T with flags := T.flags.setBits 1#32 i } i := by
        intro hc
        have := hc.2
        rw [setDel_del] at this; simp at this
      have hput := ht.put hb h2 hr hnp
      have hcnt : cnt T.nb (fun i => !T.flags.isEmpty i && !T.flags.isDel i) =
          cnt T.nb (fun j => !(T.flags.setBits 1#32 i).isEmpty j && !(T.flags.setBits 1#32 i).isDel j) + 1 := by
        refine cnt_set hp.1 ?_ hp.2 ?_
        · rw [setDel_del]; simp
        · intro j hj
          rw [setDel_empty, setDel_del, if_neg hj]
      obtain ⟨T', nf', e1, e2, e3, e4, e5, e6⟩ := ih hput (by dsimp only; omega)
      refine ⟨T', nf', ?_, e2, e3, e4, e5, fun j hj => ?_⟩
      · have hci : i < T.cap := Nat.lt_of_lt_of_le hb h.capn
        have hl : T.oldLive? i = .ok true := by unfold Kh.oldLive?; rw [if_pos hp.1, h.live hp.1, hp.2]
        rw [hl, Res.bind_ok]
        simp only [if_true, Kh.key, Kh.val, Kh.setKey, Kh.setVal, if_pos hci, hk, hv, Res.bind_ok]
        rw [at_ok _ (h.oflen (Nat.lt_of_le_of_lt (Nat.zero_le _) hp.1)) h.o16 hp.1, Res.bind_ok]
        exact e1
      · have := e6 j hj
        have h1 := this.1; have h2 := this.2
        refine ⟨h1, ?_⟩
        dsimp only at h2
        rw [setDel_empty, setDel_del] at h2
        split at h2
        · simp at h2
        · exact h2
    · have hput := h.put hb h2 hr hp
      have hci : i < T.cap := Nat.lt_of_lt_of_le hb h.capn
      refine ⟨_, _, ?_, hput, rfl, rfl, rfl, fun j hj => hj⟩
      have hl : T.oldLive? i = Res.ok false := by
        unfold Kh.oldLive?
        by_cases hlt : i < T.nb
        · rw [if_pos hlt, h.live hlt]
          have : (!T.flags.isEmpty i && !T.flags.isDel i) = false := by
            cases hc : (!T.flags.isEmpty i && !T.flags.isDel i) with
            | false => rfl
            | true => exact (hp ⟨hlt, hc⟩).elim
          rw [this]
        · rw [if_neg hlt]; rfl
      rw [hl, Res.bind_ok]
      simp only [Bool.false_eq_true, if_false, Kh.setKey, Kh.setVal, if_pos hci, Res.bind_ok]
      rfl

theorem rehashLoop_ok {hash : K → Nat} {m : Nat} {C : K → V → Prop} {size : Nat} : ∀ (n j : Nat) {T : Kh K V} {nf : KFlags},
    KRInv hash m C size T nf [] → j + n = T.nb → (∀ i, Pending T i → j ≤ i) →
    ∃ T' nf', rehashLoop hash (2 ^ m - 1) n j T nf = .ok (T', nf') ∧ KRInv hash m C size T' nf' [] ∧ T'.nb = T.nb ∧ T'.cap = T.cap ∧ T'.size = T.size ∧
      ∀ i, ¬ Pending T' i := by
  intro n
  induction n with
  | zero =>
    intro j T nf h hj hp
    refine ⟨T, nf, rfl, h, rfl, rfl, rfl, fun i hi => ?_⟩
    have h1 := hp i hi; have h2 := hi.1; omega
  | succ n ih =>
    intro j T nf h hj hp
    have hlt : j < T.nb := by omega
    unfold rehashLoop
    rw [h.live hlt, Res.bind_ok]
    by_cases hq : Pending T j
    · obtain ⟨k, v, hk, hv, _⟩ := h.pending j hq
      have ht := h.take hq hk hv
      have hc := Nat.lt_of_lt_of_le hlt h.capo
      rw [hq.2, if_pos rfl]
      simp only [Kh.key, Kh.val, if_pos hc, hk, hv, Res.bind_ok]
      rw [at_ok _ (h.oflen (by omega)) h.o16 hlt, Res.bind_ok]
      obtain ⟨T1, nf1, e1, e2, e3, e4, e5, e6⟩ := kickLoop_ok (T.nb + 1) ht (Nat.lt_succ_of_le (cnt_le _ _))
      have e1' : kickLoop hash (2 ^ m - 1) (T.nb + 1) { T with flags := T.flags.setBits 1#32 j } nf k v = .ok (T1, nf1) := e1
      rw [e1', Res.bind_ok]
      have hp1 : ∀ i, Pending T1 i → j + 1 ≤ i := by
        intro i hi
        have := e6 i hi
        have h1 := this.1; have h2 := this.2
        dsimp only at h2
        rw [setDel_empty, setDel_del] at h2
        split at h2
        · simp at h2
        · next hne =>
          have := hp i ⟨h1, h2⟩
          omega
      obtain ⟨T2, nf2, f1, f2, f3, f4, f5, f6⟩ := ih (j + 1) e2 (by rw [e3]; show j + 1 + n = T.nb; omega) hp1
      exact ⟨T2, nf2, f1, f2, f3.trans e3, f4.trans e4, f5.trans e5, f6⟩
    · have : (!T.flags.isEmpty j && !T.flags.isDel j) = false := by
        cases hc : (!T.flags.isEmpty j && !T.flags.isDel j) with
        | false => rfl
        | true => exact (hq ⟨hlt, hc⟩).elim
      rw [this]
      simp only [Bool.false_eq_true, if_false]
      refine ih (j + 1) h (by omega) fun i hi => ?_
      have := hp i hi
      by_cases e : i = j
      · subst e; exact (hq hi).elim
      · omega

end Urkel
