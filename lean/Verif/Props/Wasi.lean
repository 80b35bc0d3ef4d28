import Verif.Model.Wasi
import Verif.Props.Util

/-!
C97: the directory listing in WASI builds, where names are inferred from their lengths.
-/

namespace Urkel

/-- How many names in the directory have `n` letters. -/
def lengthCount (n : Nat) (names : List Bytes) : Nat := (names.filter fun x => x.length = n).length

private theorem lengthCount_cons (n : Nat) (x : Bytes) (l : List Bytes) :
    lengthCount n (x :: l) = (if x.length = n then 1 else 0) + lengthCount n l := by
  unfold lengthCount
  by_cases h : x.length = n
  · rw [List.filter_cons_of_pos (by simpa using h), if_pos h, List.length_cons]; omega
  · rw [List.filter_cons_of_neg (by simpa using h), if_neg h]; omega

theorem wasiDigits_eq : ∀ (k n : Nat) (acc : Bytes), wasiDigits k n acc = serializeLoop k n acc
  | 0, _, _ => rfl
  | k + 1, n, acc => wasiDigits_eq k (n / 10) _

theorem wasiDigits_isName (n : Nat) (h : n < 2 ^ 32) : IsName (wasiDigits 10 n []) n := by
  rw [wasiDigits_eq]
  obtain ⟨ds, e, hl, hd, hv⟩ := serializeLoop_eq 10 n []
  rw [e, List.append_nil]
  exact ⟨hl, hd, by rw [hv]; exact Nat.mod_eq_of_lt (by omega)⟩

/-- What the loop infers, in some order. -/
theorem wasiLoop_perm : ∀ (names : List Bytes) (m l : Bool) (i : Nat),
    i + lengthCount 10 names ≤ 2 ^ 32 - 1 →
    (wasiLoop names m l i).Perm
      ((((if m then [] else [metaName]) ++ (if l then [] else [lockName])).take
          (lengthCount 4 names)) ++
        (List.range' i (lengthCount 10 names)).map fun k => wasiDigits 10 k [])
  | [], m, l, i, _ => by simp [wasiLoop, lengthCount]
  | x :: rest, m, l, i, h => by
    rw [lengthCount_cons] at h
    rw [lengthCount_cons, lengthCount_cons, wasiLoop]
    by_cases h4 : x.length = 4
    · have h10 : ¬ x.length = 10 := by omega
      rw [if_pos h4, if_pos h4, if_neg h10, Nat.zero_add, Nat.add_comm 1]
      rw [if_neg h10, Nat.zero_add] at h
      cases m with
      | false =>
        have ih := wasiLoop_perm rest true l i h
        simpa using ih
      | true =>
        cases l with
        | false =>
          have ih := wasiLoop_perm rest true true i h
          simpa using ih
        | true =>
          have ih := wasiLoop_perm rest true true i h
          simpa using ih
    · rw [if_neg h4, if_neg h4, Nat.zero_add]
      by_cases h10 : x.length = 10
      · rw [if_pos h10, if_pos h10, Nat.add_comm 1, List.range'_succ, List.map_cons]
        rw [if_pos h10] at h
        have e : (i + 1) % 2 ^ 32 = i + 1 := Nat.mod_eq_of_lt (by omega)
        rw [e]
        have ih := wasiLoop_perm rest m l (i + 1) (by omega)
        exact (ih.cons _).trans List.perm_middle.symm
      · rw [if_neg h10, if_neg h10, Nat.zero_add]
        rw [if_neg h10, Nat.zero_add] at h
        exact wasiLoop_perm rest m l i h

private theorem metaName_len : metaName.length = 4 := by decide +kernel
private theorem lockName_len : lockName.length = 4 := by decide +kernel

private theorem taken_len {c : Nat} {x : Bytes} (hx : x ∈ [metaName, lockName].take c) :
    x.length = 4 := by
  have := List.mem_of_mem_take hx
  rcases List.mem_cons.1 this with rfl | this
  · exact metaName_len
  · rw [List.mem_singleton.1 this]; exact lockName_len

/-- The number of data files is taken to be the number of names with ten letters. -/
theorem wasiLoop_dataFile (names : List Bytes) (h : lengthCount 10 names < 2 ^ 32 - 1) (k : Nat) :
    DataFile (wasiLoop names false false 1) k ↔ 1 ≤ k ∧ k ≤ lengthCount 10 names := by
  have hp := wasiLoop_perm names false false 1 (by omega)
  unfold DataFile
  constructor
  · rintro ⟨hk, x, hx, hn⟩
    rw [hp.mem_iff, List.mem_append] at hx
    rcases hx with hx | hx
    · have := taken_len (c := lengthCount 4 names) hx
      have := hn.1
      omega
    · obtain ⟨j, hj, rfl⟩ := List.mem_map.1 hx
      rw [List.mem_range'_1] at hj
      have h1 := (wasiDigits_isName j (by omega)).2.2
      have h2 := hn.2.2
      rw [h1] at h2
      omega
  · intro hk
    refine ⟨by omega, wasiDigits 10 k [], ?_, wasiDigits_isName k (by omega)⟩
    rw [hp.mem_iff, List.mem_append]
    exact Or.inr (List.mem_map.2 ⟨k, List.mem_range'_1.2 ⟨hk.1, by omega⟩, rfl⟩)

private theorem wasiLoop_nodup (names : List Bytes) (h : lengthCount 10 names < 2 ^ 32 - 1) :
    (wasiLoop names false false 1).Nodup := by
  have hp := wasiLoop_perm names false false 1 (by omega)
  rw [hp.nodup_iff, List.nodup_append]
  refine ⟨?_, ?_, ?_⟩
  · exact (show [metaName, lockName].Nodup by decide +kernel).sublist (List.take_sublist _ _)
  · apply List.Nodup.map_on _ List.nodup_range'
    intro a ha b hb e
    rw [List.mem_range'_1] at ha hb
    have h1 := (wasiDigits_isName a (by omega)).2.2
    have h2 := (wasiDigits_isName b (by omega)).2.2
    rw [← h1, ← h2, e]
  · intro x hx y hy e
    subst e
    obtain ⟨j, hj, rfl⟩ := List.mem_map.1 hy
    rw [List.mem_range'_1] at hj
    have := taken_len (c := lengthCount 4 names) hx
    have := (wasiDigits_isName j (by omega)).1
    omega

/-- Opening takes the number of data files to be the number of names with ten letters,
whatever these names are, for every directory. -/
theorem C97_index (names : List Bytes) (h : lengthCount 10 names < 2 ^ 32 - 1) :
    wasiFindIndex names = .ok (some (lengthCount 10 names)) := by
  have hp := wasiLoop_perm names false false 1 (by omega)
  obtain ⟨r, e, hr⟩ := C38_find_index (wasiLoop names false false 1) (wasiLoop_nodup names h) (by
    intro x hx c hc
    rw [hp.mem_iff, List.mem_append] at hx
    rcases hx with hx | hx
    · have := List.mem_of_mem_take hx
      have key : ∀ y ∈ [metaName, lockName], ∀ c ∈ y, c ≠ 0 := by decide +kernel
      exact key x this c hc
    · obtain ⟨j, hj, rfl⟩ := List.mem_map.1 hx
      rw [List.mem_range'_1] at hj
      exact ((wasiDigits_isName j (by omega)).2.1 c hc).ne_zero)
  have : r = some (lengthCount 10 names) :=
    (hr _).2 ⟨by omega, wasiLoop_dataFile names h⟩
  rw [this] at e
  exact e

private theorem strcmp_antisymm : ∀ {x y : Bytes}, strcmp x y ≤ 0 → strcmp y x ≤ 0 → x = y
  | [], [], _, _ => rfl
  | [], _ :: _, _, h => by simp [strcmp] at h
  | _ :: _, [], h, _ => by simp [strcmp] at h
  | a :: x, b :: y, h1, h2 => by
    rw [strcmp] at h1 h2
    by_cases e : a = b
    · subst e
      simp only [ne_eq, not_true_eq_false, if_false] at h1 h2
      rw [strcmp_antisymm h1 h2]
    · have n1 : a.toNat ≠ b.toNat := fun h => e (UInt8.toNat_inj.1 h)
      rw [if_pos e] at h1
      rw [if_pos (fun h => e h.symm)] at h2
      omega

private theorem sorted_unique {l l' : List Bytes} (hp : l.Perm l')
    (h : l.Pairwise (fun a b => strcmp a b ≤ 0)) (h' : l'.Pairwise (fun a b => strcmp a b ≤ 0)) :
    l = l' :=
  hp.eq_of_pairwise (fun _ _ _ _ h1 h2 => strcmp_antisymm h1 h2) h h'

/-- Names the listing can tell by their length: the only ones of four letters are the key
file and the lock file, the latter not without the former, and those of ten letters are
the data files from the first on. -/
structure Guessable (names : List Bytes) : Prop where
  four : ∀ x ∈ names, x.length = 4 → x = metaName ∨ x = lockName
  lock : lockName ∈ names → metaName ∈ names
  ten : ∀ x ∈ names, x.length = 10 → ∃ k, 1 ≤ k ∧ k ≤ lengthCount 10 names ∧ IsName x k

private theorem lengthCount_pos {n : Nat} {names : List Bytes} :
    0 < lengthCount n names ↔ ∃ x ∈ names, x.length = n := by
  unfold lengthCount
  rw [List.length_pos_iff_exists_mem]
  constructor
  · rintro ⟨x, hx⟩
    rw [List.mem_filter] at hx
    exact ⟨x, hx.1, by simpa using hx.2⟩
  · rintro ⟨x, hx, hl⟩
    exact ⟨x, List.mem_filter.2 ⟨hx, by simpa using hl⟩⟩

/-- For which directories the listing is right, up to names of other lengths: exactly
those above. -/
theorem C97_listing (names : List Bytes) (hnd : names.Nodup)
    (h : lengthCount 10 names < 2 ^ 32 - 1) :
    wasiScandir names =
        (scandir names).filter (fun x => decide (x.length = 4 ∨ x.length = 10)) ↔
      Guessable names := by
  have hp := wasiLoop_perm names false false 1 (by omega)
  have hmem : ∀ x, x ∈ wasiLoop names false false 1 ↔
      x ∈ [metaName, lockName].take (lengthCount 4 names) ∨
        ∃ k, 1 ≤ k ∧ k ≤ lengthCount 10 names ∧ IsName x k := by
    intro x
    rw [hp.mem_iff, List.mem_append]
    refine or_congr Iff.rfl ?_
    rw [List.mem_map]
    constructor
    · rintro ⟨k, hk, rfl⟩
      rw [List.mem_range'_1] at hk
      exact ⟨k, hk.1, by omega, wasiDigits_isName k (by omega)⟩
    · rintro ⟨k, h1, h2, hn⟩
      exact ⟨k, List.mem_range'_1.2 ⟨h1, by omega⟩, (wasiDigits_isName k (by omega)).inj hn⟩
  have hne : metaName ≠ lockName := by decide +kernel
  constructor
  · intro e
    have he : ∀ x, x ∈ wasiLoop names false false 1 ↔
        x ∈ names ∧ (x.length = 4 ∨ x.length = 10) := by
      intro x
      rw [← (scandir_perm _).mem_iff]
      show x ∈ wasiScandir names ↔ _
      rw [e, List.mem_filter, (scandir_perm _).mem_iff, decide_eq_true_eq]
    refine ⟨fun x hx hl => ?_, fun hlk => ?_, fun x hx hl => ?_⟩
    · rcases (hmem x).1 ((he x).2 ⟨hx, Or.inl hl⟩) with hx | ⟨k, _, _, hn⟩
      · simpa using List.mem_of_mem_take hx
      · have := hn.1; omega
    · rcases (hmem lockName).1 ((he _).2 ⟨hlk, Or.inl lockName_len⟩) with hx | ⟨k, _, _, hn⟩
      · refine ((he metaName).1 ((hmem _).2 (Or.inl ?_))).1
        revert hx
        match lengthCount 4 names with
        | 0 => intro hx; cases hx
        | n + 1 => intro _; exact List.mem_cons_self ..
      · have := hn.1; have := lockName_len; omega
    · rcases (hmem x).1 ((he x).2 ⟨hx, Or.inr hl⟩) with hx | hx
      · have := taken_len hx; omega
      · exact hx
  · intro g
    have tens : ((names.filter fun x => x.length = 10)).Perm
        ((List.range' 1 (lengthCount 10 names)).map fun k => wasiDigits 10 k []) := by
      refine (List.subperm_of_subset (hnd.filter _) ?_).perm_of_length_le ?_
      · intro x hx
        rw [List.mem_filter, decide_eq_true_eq] at hx
        obtain ⟨k, h1, h2, hn⟩ := g.ten x hx.1 hx.2
        exact List.mem_map.2 ⟨k, List.mem_range'_1.2 ⟨h1, by omega⟩,
          (wasiDigits_isName k (by omega)).inj hn⟩
      · rw [List.length_map, List.length_range']
        exact Nat.le_refl _
    have fours : ∀ x, x ∈ [metaName, lockName].take (lengthCount 4 names) ↔
        x ∈ names ∧ x.length = 4 := by
      intro x
      have two : lockName ∈ names → 2 ≤ lengthCount 4 names := by
        intro hl
        have hm := g.lock hl
        have : [metaName, lockName].Subperm (names.filter fun x => x.length = 4) := by
          refine List.subperm_of_subset (by simp [hne]) ?_
          intro y hy
          rw [List.mem_filter, decide_eq_true_eq]
          rcases List.mem_cons.1 hy with rfl | hy
          · exact ⟨hm, metaName_len⟩
          · rw [List.mem_singleton.1 hy]; exact ⟨hl, lockName_len⟩
        exact this.length_le
      constructor
      · intro hx
        refine ⟨?_, taken_len hx⟩
        have hpos : 0 < lengthCount 4 names := by
          rcases Nat.eq_zero_or_pos (lengthCount 4 names) with h0 | h0
          · rw [h0] at hx; cases hx
          · exact h0
        obtain ⟨y, hy, hyl⟩ := lengthCount_pos.1 hpos
        have hmeta : metaName ∈ names := by
          rcases g.four y hy hyl with rfl | rfl
          · exact hy
          · exact g.lock hy
        rcases List.mem_cons.1 (List.mem_of_mem_take hx) with rfl | hx'
        · exact hmeta
        · have hx' := List.mem_singleton.1 hx'
          subst hx'
          by_contra hno
          have : (names.filter fun x => x.length = 4).Subperm [metaName] := by
            refine List.subperm_of_subset (hnd.filter _) ?_
            intro y hy
            rw [List.mem_filter, decide_eq_true_eq] at hy
            rcases g.four y hy.1 hy.2 with rfl | rfl
            · exact List.mem_cons_self ..
            · exact absurd hy.1 hno
          have : lengthCount 4 names ≤ 1 := this.length_le
          rw [show lengthCount 4 names = 1 by omega] at hx
          exact hne (List.mem_singleton.1 hx).symm
      · rintro ⟨hx, hl⟩
        rcases g.four x hx hl with rfl | rfl
        · have := lengthCount_pos.2 ⟨_, hx, hl⟩
          match lengthCount 4 names, this with
          | n + 1, _ => exact List.mem_cons_self ..
        · have := two hx
          match lengthCount 4 names, this with
          | n + 2, _ => exact List.mem_cons_of_mem _ (List.mem_cons_self ..)
    refine sorted_unique ?_ (scandir_sorted _) ((scandir_sorted _).filter _)
    refine (scandir_perm _).trans ?_
    rw [List.perm_ext_iff_of_nodup (wasiLoop_nodup names h)
      (((scandir_perm names).nodup_iff.2 hnd).filter _)]
    intro x
    rw [hmem, fours, List.mem_filter, (scandir_perm _).mem_iff, decide_eq_true_eq, and_or_left]
    refine or_congr Iff.rfl ?_
    constructor
    · rintro ⟨k, h1, h2, hn⟩
      have : x ∈ names.filter fun x => x.length = 10 := by
        rw [tens.mem_iff]
        exact List.mem_map.2 ⟨k, List.mem_range'_1.2 ⟨h1, by omega⟩,
          (wasiDigits_isName k (by omega)).inj hn⟩
      rw [List.mem_filter, decide_eq_true_eq] at this
      exact this
    · rintro ⟨hx, hl⟩
      exact g.ten x hx hl

/-- In the directory of a database (any order, with names of other lengths beside it),
the number of data files is found as on other systems. -/
theorem C97_same_partial (names : List Bytes) (hnd : names.Nodup)
    (hz : ∀ x ∈ names, ∀ c ∈ x, c ≠ 0) (h : lengthCount 10 names < 2 ^ 32 - 1)
    (g : Guessable names) : wasiFindIndex names = findIndex names := by
  rw [C97_index names h]
  obtain ⟨r, e, hr⟩ := C38_find_index names hnd hz
  rw [e, (hr (lengthCount 10 names)).2 ⟨by omega, fun k => ?_⟩]
  rw [← wasiLoop_dataFile names h]
  have hl := (C97_listing names hnd h).2 g
  have hmem : ∀ x, x ∈ wasiLoop names false false 1 ↔
      x ∈ names ∧ (x.length = 4 ∨ x.length = 10) := by
    intro x
    rw [← (scandir_perm _).mem_iff]
    show x ∈ wasiScandir names ↔ _
    rw [hl, List.mem_filter, (scandir_perm _).mem_iff, decide_eq_true_eq]
  unfold DataFile
  constructor
  · rintro ⟨hk, x, hx, hn⟩
    exact ⟨hk, x, (hmem x).2 ⟨hx, Or.inr hn.1⟩, hn⟩
  · rintro ⟨hk, x, hx, hn⟩
    exact ⟨hk, x, ((hmem x).1 hx).1, hn⟩

/-- **The part that is false.** A gap in the numbers, which other systems refuse (C38),
is not seen; and a foreign file with a name of ten letters counts as a data file. -/
theorem C97_false :
    (findIndex ["0000000002".toUTF8.toList] = .ok none ∧
      wasiFindIndex ["0000000002".toUTF8.toList] = .ok (some 1)) ∧
    (findIndex ["meta".toUTF8.toList, "lock".toUTF8.toList, "backup.tar".toUTF8.toList] =
        .ok (some 0) ∧
      wasiFindIndex ["meta".toUTF8.toList, "lock".toUTF8.toList, "backup.tar".toUTF8.toList] =
        .ok (some 1)) := by
  refine ⟨⟨?_, ?_⟩, ?_, ?_⟩ <;> decide +kernel

/-- What becomes of a count that is too high: the last file cannot be opened and cannot
be removed, so recovery, and with it `urkel_open`, fails for good, without having changed
anything. -/
theorem C97_refused (E : Env) (key : B32) (files : List Bytes) (φ : Nat → FileFault) (n : Nat)
    (m : Meta) (h1 : (φ n).scan = some .openFail) (h2 : (φ n).unlink = true)
    (hn : files.length ≤ n) :
    recoverIO E key files φ (n + 1) m = .ok (none, files) := by
  show (do
    let (r, m) ← findMetaIO E key (files.getD n []) (φ n).scan m
    _) = _
  rw [h1]
  show (if (φ n).unlink = true then _ else _) = _
  rw [h2, if_pos rfl, List.take_of_length_le (by omega)]
  rfl

/-- A database with two data files, in the order `readdir` happens to have, beside a
directory entry of another length. -/
theorem C97_example :
    let names := ["0000000002", "lock", ".", "0000000001", "..", "notes.txt", "meta"].map
      fun s => s.toUTF8.toList
    Guessable names ∧ names.Nodup ∧ wasiScandir names =
      ["0000000001", "0000000002", "lock", "meta"].map fun s => s.toUTF8.toList := by
  refine ⟨⟨?_, ?_, ?_⟩, ?_, ?_⟩
  · decide +kernel
  · decide +kernel
  · have c : lengthCount 10 (["0000000002", "lock", ".", "0000000001", "..", "notes.txt",
        "meta"].map fun s => s.toUTF8.toList) = 2 := by decide +kernel
    intro x hx hl
    rw [c]
    have : x = wasiDigits 10 1 [] ∨ x = wasiDigits 10 2 [] := by
      revert x
      decide +kernel
    rcases this with rfl | rfl
    · exact ⟨1, by omega, by omega, wasiDigits_isName 1 (by omega)⟩
    · exact ⟨2, by omega, by omega, wasiDigits_isName 2 (by omega)⟩
  · decide +kernel
  · decide +kernel

end Urkel
