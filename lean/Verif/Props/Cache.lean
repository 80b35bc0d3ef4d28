import Verif.Lemmas.KhashPut
import Verif.Spec.Cache
import Verif.Model.Store
/-
C66: the cache of root nodes is a map.
-/
namespace Urkel

section
variable {K V : Type} [DecidableEq K]

theorem insertsOf_snoc (key : K) (past : List (CacheOp K V)) (op : CacheOp K V) :
    insertsOf key (past ++ [op]) = insertsOf key past ++ insertsOf key [op] := by
  simp [insertsOf, List.filterMap_append]

/-- The table after some operations. -/
structure After (hash : K → Nat) (past : List (CacheOp K V)) (T : Kh K V) : Prop where
  ok : KOk hash T
  has : ∀ k v, T.Has k v ↔ (insertsOf k past).head? = some v
  size : T.size ≤ insertions past

theorem insertions_snoc (past : List (CacheOp K V)) (op : CacheOp K V) :
    insertions (past ++ [op]) = insertions past + insertions [op] := by
  induction past with
  | nil => simp [insertions]
  | cons a past ih => cases a <;> simp only [List.cons_append, insertions, ih] <;> omega

theorem After.lookup {hash : K → Nat} {past : List (CacheOp K V)} {T : Kh K V} (h : After hash past T) (k : K) :
    tableLookup hash T k = .ok (insertsOf k past).head? ∧ After hash (past ++ [.lookup k]) T := by
  obtain ⟨o, e, ho⟩ := tableLookup_ok h.ok k
  have : o = (insertsOf k past).head? := by
    cases hx : (insertsOf k past).head? with
    | some v => exact (ho v).1 ((h.has k v).2 hx)
    | none =>
      cases o with
      | none => rfl
      | some v =>
        have := (h.has k v).1 ((ho v).2 rfl)
        rw [hx] at this; cases this
  refine ⟨by rw [e, this], h.ok, fun k' v => ?_, ?_⟩
  · rw [insertsOf_snoc, h.has]; simp [insertsOf]
  · rw [insertions_snoc]; exact Nat.le_trans h.size (Nat.le_add_right _ _)

theorem After.insert {hash : K → Nat} {past : List (CacheOp K V)} {T : Kh K V} (h : After hash past T) (k : K) (v : V)
    (hs : insertions past < 1653562409) :
    ∃ T', tableInsert hash T k v = .ok (T', (insertsOf k past).isEmpty) ∧ After hash (past ++ [.insert k v]) T' := by
  obtain ⟨T', b, e, hok, hcase⟩ := tableInsert_ok h.ok (Nat.lt_of_le_of_lt h.size hs) k v
  have hone : ∀ k', insertsOf k' [CacheOp.insert k v] = if k = k' then [v] else [] := by
    intro k'; by_cases hk : k = k' <;> simp [insertsOf, hk]
  rcases hcase with ⟨rfl, ⟨w, hw⟩, hh, hsz⟩ | ⟨rfl, hno, hh, hsz⟩
  · have hne := (h.has k w).1 hw
    have hemp : (insertsOf k past).isEmpty = false := by
      cases hx : insertsOf k past with
      | nil => rw [hx] at hne; cases hne
      | cons a l => rfl
    refine ⟨T', by rw [e, hemp], hok, fun k' v' => ?_, ?_⟩
    · rw [hh, h.has, insertsOf_snoc, hone, List.head?_append]
      split
      · next hk => subst hk; rw [hne]; rfl
      · simp
    · rw [insertions_snoc, hsz]; exact Nat.le_trans h.size (Nat.le_add_right _ _)
  · have hnil : insertsOf k past = [] := by
      cases hx : insertsOf k past with
      | nil => rfl
      | cons a l => exact (hno a ((h.has k a).2 (by rw [hx]; rfl))).elim
    refine ⟨T', by rw [e, hnil]; rfl, hok, fun k' v' => ?_, ?_⟩
    · rw [hh, h.has, insertsOf_snoc, hone, List.head?_append]
      by_cases hk : k = k'
      · subst hk
        rw [hnil]
        simp [eq_comm]
      · have : ¬ k' = k := fun e => hk e.symm
        simp [hk, this]
    · rw [insertions_snoc, hsz]
      have := h.size
      simp only [insertions]; omega

theorem runTable_ok {hash : K → Nat} : ∀ (ops : List (CacheOp K V)) {past : List (CacheOp K V)} {T : Kh K V}, After hash past T →
    insertions past + insertions ops ≤ 1653562409 →
    ∃ T', runTable hash T ops = .ok (T', expected past ops) ∧ After hash (past ++ ops) T' := by
  intro ops
  induction ops with
  | nil => intro past T h _; exact ⟨T, rfl, by simpa using h⟩
  | cons op ops ih =>
    intro past T h hc
    cases op with
    | lookup k =>
      obtain ⟨e, h'⟩ := h.lookup k
      obtain ⟨T', e', h''⟩ := ih h' (by rw [insertions_snoc]; simpa [insertions] using hc)
      refine ⟨T', ?_, by simpa using h''⟩
      unfold runTable
      rw [e, Res.bind_ok, e', Res.bind_ok]; rfl
    | insert k v =>
      have hc' : insertions past + (insertions ops + 1) ≤ 1653562409 := hc
      obtain ⟨T1, e, h'⟩ := h.insert k v (by omega)
      obtain ⟨T', e', h''⟩ := ih h' (by rw [insertions_snoc]; simp only [insertions]; omega)
      refine ⟨T', ?_, by simpa using h''⟩
      unfold runTable
      rw [e, Res.bind_ok]
      dsimp only
      rw [e', Res.bind_ok]; rfl

/-- C66: use a new table in any way, with any hash function and at most 1653562409
insertions. No array access is out of bounds, no memory is read before it was written,
every search ends, and every result is the one expected of a map that keeps the first
value inserted for a key, however often the table was grown and rearranged. -/
theorem C66_map (hash : K → Nat) (ops : List (CacheOp K V)) (hc : insertions ops ≤ 1653562409) :
    ∃ T, runTable hash (Kh.init K V) ops = .ok (T, expected [] ops) := by
  obtain ⟨T, e, _⟩ := runTable_ok ops (past := []) (T := Kh.init K V)
    ⟨.init rfl, fun k v => ⟨fun h => (not_has_init k v h).elim, fun h => nomatch h⟩, Nat.le_refl _⟩ (by simpa [insertions] using hc)
  exact ⟨T, e⟩

/-- C66, clearing: walking over the buckets meets, for each key ever inserted, the value
that was kept for it, exactly once. (So `urkel_cache_clear` frees every node once; the
values of later insertions were freed by the insertion.) -/
theorem C66_clear (hash : K → Nat) (ops : List (CacheOp K V)) (hc : insertions ops ≤ 1653562409) {T : Kh K V} {rs : List (CacheRet V)}
    (h : runTable hash (Kh.init K V) ops = .ok (T, rs)) :
    ∃ entries : List (K × V), tableClear T T.nb 0 = .ok (entries.map Prod.snd) ∧ (entries.map Prod.fst).Nodup ∧
      ∀ k v, (k, v) ∈ entries ↔ (insertsOf k ops).head? = some v := by
  obtain ⟨T', e, h'⟩ := runTable_ok ops (past := []) (T := Kh.init K V)
    ⟨.init rfl, fun k v => ⟨fun h => (not_has_init k v h).elim, fun h => nomatch h⟩, Nat.le_refl _⟩ (by simpa [insertions] using hc)
  rw [e] at h
  cases h
  obtain ⟨P, e1, h1, h2⟩ := tableClear_ok h'.ok
  exact ⟨P, e1, h1, fun k v => (h2 k v).trans (h'.has k v)⟩

end

/-- The same operations on the list that stands for the table in Model/Store.lean. -/
def runList : List (B32 × Ptr) → List (CacheOp B32 Ptr) → List (CacheRet Ptr)
  | _, [] => []
  | c, .insert k v :: ops => .inserted (cacheLookup c k).isNone :: runList (cacheInsert c k v) ops
  | c, .lookup k :: ops => .found (cacheLookup c k) :: runList c ops

theorem runList_expected : ∀ (ops : List (CacheOp B32 Ptr)) (past : List (CacheOp B32 Ptr)) (c : List (B32 × Ptr)),
    (∀ k, cacheLookup c k = (insertsOf k past).head?) → runList c ops = expected past ops := by
  intro ops
  induction ops with
  | nil => intro past c _; rfl
  | cons op ops ih =>
    intro past c h
    cases op with
    | lookup k =>
      unfold runList expected
      rw [h k, ih (past ++ [.lookup k]) c]
      intro k'
      rw [insertsOf_snoc, h]; simp [insertsOf]
    | insert k v =>
      unfold runList expected
      rw [h k, ih (past ++ [.insert k v]) (cacheInsert c k v)]
      · cases insertsOf k past <;> rfl
      · intro k'
        have hone : insertsOf k' [CacheOp.insert k v] = if k = k' then [v] else [] := by
          by_cases hk : k = k' <;> simp [insertsOf, hk]
        rw [insertsOf_snoc, hone, List.head?_append, ← h k']
        unfold cacheInsert
        have hck : c.lookup k = cacheLookup c k := rfl
        split
        · next w hw =>
          split
          · next hk => subst hk; rw [hck] at hw; rw [hw]; rfl
          · simp
        · next hw =>
          unfold cacheLookup
          by_cases hk : k = k'
          · subst hk
            rw [hw]; simp
          · have hk' : (k' == k) = false := by simpa using fun e => hk e.symm
            rw [List.lookup_cons, hk']
            simp [hk]

/-- C66, as used: with `urkel_murmur3` as the hash function the table returns what the
association list of the store model returns. -/
theorem C66_cache (ops : List (CacheOp B32 Ptr)) (hc : insertions ops ≤ 1653562409) :
    ∃ T, runTable cacheHash (Kh.init B32 Ptr) ops = .ok (T, runList [] ops) := by
  obtain ⟨T, e⟩ := C66_map cacheHash ops hc
  exact ⟨T, by rw [e, runList_expected ops [] [] (fun _ => rfl)]⟩

/-- Seven insertions with colliding hashes: the table grows twice and keeps the first
value for key 3. -/
example : (match runTable (fun k : Nat => k % 2) (Kh.init Nat Nat)
    [.insert 1 10, .insert 2 20, .insert 3 30, .insert 4 40, .insert 3 31, .insert 5 50, .insert 6 60, .insert 7 70, .lookup 3, .lookup 7, .lookup 8] with
    | .ok (T, rs) => (T.nb, T.size, rs.drop 8)
    | _ => (0, 0, [])) = (16, 7, [.found (some 30), .found (some 70), .found none]) := by decide +kernel

/-- Published test values of MurmurHash3 (x86, 32 bit). -/
example : murmur3 [] 1 = 0x514e28b7 ∧ murmur3 [0x21, 0x43, 0x65, 0x87] 0 = 0xf55b516b ∧ murmur3 [0x21, 0x43, 0x65] 0 = 0x7e4a8634 := by decide +kernel

end Urkel
