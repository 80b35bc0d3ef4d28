import Verif.Model.Util
import Verif.Spec.Iter
import Mathlib.Data.List.Nodup
import Mathlib.Data.List.Sort
/-
C37, C38, C45, C52: file names, directory listings, path buffers, comparison,
hexadecimal.
-/
namespace Urkel

/-! ### C37 -/

/-- The number a string of ASCII digits denotes. -/
def decimal (name : Bytes) : Nat := name.foldl (fun a c => 10 * a + (c.toNat - 48)) 0

def Digit (c : UInt8) : Prop := 48 ≤ c.toNat ∧ c.toNat ≤ 57

/-- `name` is the 10-digit decimal numeral of `n`. -/
def IsName (name : Bytes) (n : Nat) : Prop := name.length = 10 ∧ (∀ c ∈ name, Digit c) ∧ decimal name = n

theorem decimal_from (x : Bytes) : ∀ s, x.foldl (fun a c => 10 * a + (c.toNat - 48)) s = s * 10 ^ x.length + decimal x := by
  induction x with
  | nil => intro s; simp [decimal]
  | cons c x ih =>
    intro s
    simp only [List.foldl_cons, List.length_cons, decimal]
    rw [ih, ih]
    rw [Nat.pow_succ, Nat.add_mul]
    simp only [decimal, Nat.mul_zero, Nat.zero_add]
    rw [show 10 * s * 10 ^ x.length = s * (10 ^ x.length * 10) by rw [Nat.mul_comm 10 s, Nat.mul_assoc, Nat.mul_comm 10]]
    omega

theorem decimal_cons (c : UInt8) (x : Bytes) : decimal (c :: x) = (c.toNat - 48) * 10 ^ x.length + decimal x := by
  have := decimal_from x (10 * 0 + (c.toNat - 48))
  simpa [decimal] using this

theorem decimal_lt {x : Bytes} (h : ∀ c ∈ x, Digit c) : decimal x < 10 ^ x.length := by
  induction x with
  | nil => simp [decimal]
  | cons c x ih =>
    rw [decimal_cons, List.length_cons, Nat.pow_succ]
    have h1 := ih (fun d hd => h d (by simp [hd]))
    have h2 := (h c (by simp)).2
    have h3 : (c.toNat - 48) * 10 ^ x.length ≤ 9 * 10 ^ x.length := Nat.mul_le_mul_right _ (by omega)
    omega

theorem serializeLoop_eq : ∀ i n acc, ∃ ds : Bytes, serializeLoop i n acc = ds ++ acc ∧ ds.length = i ∧ (∀ c ∈ ds, Digit c) ∧
    decimal ds = n % 10 ^ i := by
  intro i
  induction i with
  | zero => intro n acc; exact ⟨[], rfl, rfl, by simp, by simp [decimal, Nat.mod_one]⟩
  | succ i ih =>
    intro n acc
    obtain ⟨ds, e, hl, hd, hv⟩ := ih (n / 10) (UInt8.ofNat (48 + n % 10) :: acc)
    have hc : (UInt8.ofNat (48 + n % 10)).toNat = 48 + n % 10 := by
      rw [UInt8.toNat_ofNat']; omega
    refine ⟨ds ++ [UInt8.ofNat (48 + n % 10)], ?_, by simp [hl], ?_, ?_⟩
    · rw [serializeLoop, e, List.append_assoc]; rfl
    · intro c hm
      simp only [List.mem_append, List.mem_singleton] at hm
      rcases hm with hm | rfl
      · exact hd c hm
      · constructor <;> omega
    · simp only [decimal, List.foldl_append, List.foldl_cons, List.foldl_nil]
      rw [show ds.foldl (fun a c => 10 * a + (c.toNat - 48)) 0 = decimal ds from rfl, hv, hc, Nat.pow_succ, Nat.mul_comm (10 ^ i) 10,
        Nat.mod_mul]
      omega

/-- C37: `urkel_serialize_u32` writes the 10-digit numeral of the number and a
terminator. -/
theorem C37_serialize (n : Nat) (h : n < 2 ^ 32) : ∃ name, serializeU32 n = name ++ [0] ∧ IsName name n := by
  obtain ⟨ds, e, hl, hd, hv⟩ := serializeLoop_eq 10 n [0]
  exact ⟨ds, e, hl, hd, by rw [hv]; exact Nat.mod_eq_of_lt (by omega)⟩

theorem rdAt_mid {a b : Bytes} {c : UInt8} : rdAt (a ++ c :: b) a.length = .ok c := by
  simp [rdAt]

theorem parseLoop_eq : ∀ (n : Nat) (pre rest : Bytes) (num : Nat), (∀ c ∈ rest, c ≠ 0) → num < 2 ^ 32 →
    ∃ r, parseLoop (pre ++ rest ++ [0]) n pre.length num = .ok r ∧ ∀ m, r = some m ↔
      rest.length = n ∧ (∀ c ∈ rest, Digit c) ∧ rest.foldl (fun a c => 10 * a + (c.toNat - 48)) num = m ∧ m < 2 ^ 32 := by
  intro n
  induction n with
  | zero =>
    intro pre rest num hz hn
    cases rest with
    | nil =>
      refine ⟨some num, ?_, ?_⟩
      · rw [parseLoop, List.append_nil, rdAt_mid, Res.bind_ok]
        simp only [ne_eq, not_true_eq_false, if_false, Res.pure_eq, Nat.mod_eq_of_lt hn]
      · intro m; simp; intro h; omega
    | cons c rest =>
      refine ⟨none, ?_, ?_⟩
      · rw [parseLoop, List.append_assoc, List.cons_append, rdAt_mid, Res.bind_ok]
        simp only [ne_eq, hz c (by simp), not_false_eq_true, if_true, Res.pure_eq]
      · intro m; simp
  | succ n ih =>
    intro pre rest num hz hn
    cases rest with
    | nil =>
      refine ⟨none, ?_, ?_⟩
      · rw [parseLoop, List.append_nil, rdAt_mid, Res.bind_ok]; simp
      · intro m; simp
    | cons c rest =>
      have hc := hz c (by simp)
      rw [parseLoop, List.append_assoc, List.cons_append, rdAt_mid, Res.bind_ok, if_neg hc]
      split
      · next hd =>
        refine ⟨none, rfl, ?_⟩
        intro m
        refine ⟨fun h => (nomatch h), fun h => ?_⟩
        have h1 := h.2.1 c (by simp)
        simp only [Digit] at h1
        omega
      · next hd =>
        have hm : (num * 10 + (c.toNat - 48)) % 2 ^ 64 = 10 * num + (c.toNat - 48) := by
          rw [Nat.mod_eq_of_lt (by omega)]; omega
        simp only [hm]
        split
        · next hb =>
          refine ⟨none, rfl, ?_⟩
          intro m
          refine ⟨fun h => (nomatch h), fun h => ?_⟩
          have h1 := h.2.2.1
          rw [List.foldl_cons, decimal_from] at h1
          have h2 : 0 < 10 ^ rest.length := Nat.pow_pos (by omega)
          have h3 := Nat.mul_le_mul_left (10 * num + (c.toNat - 48)) h2
          omega
        · next hb =>
          obtain ⟨r, e, hr⟩ := ih (pre ++ [c]) rest (10 * num + (c.toNat - 48)) (fun d hm => hz d (by simp [hm])) (by omega)
          refine ⟨r, ?_, ?_⟩
          · rw [← e]; simp
          · intro m
            rw [hr, List.foldl_cons]
            constructor
            · rintro ⟨h1, h2, h3, h4⟩
              exact ⟨by simp [h1], by intro d hm; simp at hm; rcases hm with rfl | hm; · constructor <;> omega
                                      exact h2 d hm, h3, h4⟩
            · rintro ⟨h1, h2, h3, h4⟩
              exact ⟨by simpa using h1, fun d hm => h2 d (by simp [hm]), h3, h4⟩

/-- C37: `urkel_parse_u32` on any C string reads inside the string, and accepts it
exactly when it is the 10-digit numeral of a 32-bit number, which it returns. -/
theorem C37_parse (name : Bytes) (h : ∀ c ∈ name, c ≠ 0) :
    ∃ r, parseU32 (name ++ [0]) = .ok r ∧ ∀ n, r = some n ↔ IsName name n ∧ n < 2 ^ 32 := by
  obtain ⟨r, e, hr⟩ := parseLoop_eq 10 [] name 0 h (by omega)
  refine ⟨r, e, fun n => ?_⟩
  rw [hr]
  exact ⟨fun ⟨a, b, c, d⟩ => ⟨⟨a, b, c⟩, d⟩, fun ⟨⟨a, b, c⟩, d⟩ => ⟨a, b, c, d⟩⟩

theorem Digit.ne_zero {c : UInt8} (h : Digit c) : c ≠ 0 := by
  rintro rfl; simp [Digit] at h

theorem parse_name {name : Bytes} {n : Nat} (h : IsName name n) (hn : n < 2 ^ 32) : parseU32 (name ++ [0]) = .ok (some n) := by
  obtain ⟨r, e, hr⟩ := C37_parse name (fun c hc => (h.2.1 c hc).ne_zero)
  rw [e, (hr n).2 ⟨h, hn⟩]

/-- C37: the name written for a number is read back as that number. -/
theorem C37_roundtrip (n : Nat) (h : n < 2 ^ 32) : parseU32 (serializeU32 n) = .ok (some n) := by
  obtain ⟨name, e, hn⟩ := C37_serialize n h
  rw [e]; exact parse_name hn h

theorem strcmp_self (x : Bytes) : strcmp x x = 0 := by
  induction x with
  | nil => rfl
  | cons c x ih => simp [strcmp, ih]

theorem strcmp_zero : ∀ {x y : Bytes}, strcmp x y = 0 → x = y
  | [], [], _ => rfl
  | [], b :: y, h => by simp [strcmp] at h
  | a :: x, [], h => by simp [strcmp] at h
  | a :: x, b :: y, h => by
    rw [strcmp] at h
    split at h
    · next hne => exact absurd (UInt8.toNat_inj.1 (by omega)) hne
    · next he =>
      have he : a = b := by simpa using he
      rw [he, strcmp_zero h]

/-- String order of digit strings of one length is numeric order. -/
theorem strcmp_decimal : ∀ {x y : Bytes}, x.length = y.length → (∀ c ∈ x, Digit c) → (∀ c ∈ y, Digit c) →
    (strcmp x y < 0 ↔ decimal x < decimal y) ∧ (strcmp x y = 0 ↔ decimal x = decimal y)
  | [], [], _, _, _ => by simp [strcmp]
  | [], _ :: _, h, _, _ => by simp at h
  | _ :: _, [], h, _, _ => by simp at h
  | a :: x, b :: y, h, hx, hy => by
    have hl : x.length = y.length := by simpa using h
    have ih := strcmp_decimal hl (fun c hc => hx c (by simp [hc])) (fun c hc => hy c (by simp [hc]))
    have h1 := decimal_lt (x := x) (fun c hc => hx c (by simp [hc]))
    have h2 := decimal_lt (x := y) (fun c hc => hy c (by simp [hc]))
    have ha := hx a (by simp)
    have hb := hy b (by simp)
    simp only [Digit] at ha hb
    rw [decimal_cons, decimal_cons, strcmp, hl]
    rw [hl] at h1
    generalize 10 ^ y.length = p at *
    split
    · next hne =>
      have hne : a.toNat ≠ b.toNat := fun e => hne (UInt8.toNat_inj.1 e)
      rcases Nat.lt_or_gt_of_ne hne with h3 | h3
      · have := Nat.mul_le_mul_right p (show a.toNat - 48 + 1 ≤ b.toNat - 48 by omega)
        rw [Nat.add_mul] at this
        constructor <;> constructor <;> intro <;> omega
      · have := Nat.mul_le_mul_right p (show b.toNat - 48 + 1 ≤ a.toNat - 48 by omega)
        rw [Nat.add_mul] at this
        constructor <;> constructor <;> intro <;> omega
    · next he =>
      have he : a = b := by simpa using he
      subst he
      rw [ih.1, ih.2]
      constructor <;> omega

theorem IsName.inj {x y : Bytes} {n : Nat} (hx : IsName x n) (hy : IsName y n) : x = y := by
  have := (strcmp_decimal (hx.1.trans hy.1.symm) hx.2.1 hy.2.1).2.2 (hx.2.2.trans hy.2.2.symm)
  exact strcmp_zero this

/-- C37: every accepted name is the one written for its number. -/
theorem C37_unique (name : Bytes) (h : ∀ c ∈ name, c ≠ 0) (n : Nat) (e : parseU32 (name ++ [0]) = .ok (some n)) :
    name ++ [0] = serializeU32 n := by
  obtain ⟨r, e', hr⟩ := C37_parse name h
  rw [e] at e'; cases e'
  obtain ⟨hn, hlt⟩ := (hr n).1 rfl
  obtain ⟨x, e2, hx⟩ := C37_serialize n hlt
  rw [e2, hx.inj hn]

/-- C37: string order of names is numeric order. -/
theorem C37_order (m n : Nat) (hm : m < 2 ^ 32) (hn : n < 2 ^ 32) :
    strcmp ((serializeU32 m).take 10) ((serializeU32 n).take 10) < 0 ↔ m < n := by
  obtain ⟨x, e1, hx⟩ := C37_serialize m hm
  obtain ⟨y, e2, hy⟩ := C37_serialize n hn
  rw [e1, e2, List.take_left' hx.1, List.take_left' hy.1, (strcmp_decimal (hx.1.trans hy.1.symm) hx.2.1 hy.2.1).1, hx.2.2, hy.2.2]

example : IsName "0000032767".toUTF8.toList 32767 := by
  refine ⟨by decide +kernel, ?_, by decide +kernel⟩
  have : ("0000032767".toUTF8.toList.all fun c => decide (48 ≤ c.toNat ∧ c.toNat ≤ 57)) = true := by decide +kernel
  intro c hc
  simpa [Digit] using List.all_eq_true.1 this c hc

/-! ### C38 -/

/-- `k` is the number of a data file in the directory. -/
def DataFile (names : List Bytes) (k : Nat) : Prop := k < 2 ^ 32 ∧ ∃ name ∈ names, IsName name k

theorem strcmp_trans : ∀ {x y z : Bytes}, strcmp x y ≤ 0 → strcmp y z ≤ 0 → strcmp x z ≤ 0
  | [], _, [], _, _ => by simp [strcmp]
  | [], _, c :: _, _, _ => by simp [strcmp]
  | a :: x, [], z, h1, h2 => by simp [strcmp] at h1
  | a :: x, b :: y, [], h1, h2 => by simp [strcmp] at h2
  | a :: x, b :: y, c :: z, h1, h2 => by
    rw [strcmp] at h1 h2 ⊢
    split at h1
    · next n1 =>
      have n1 : a.toNat ≠ b.toNat := fun e => n1 (UInt8.toNat_inj.1 e)
      split at h2
      · split <;> [omega; (next e => simp at e; subst e; omega)]
      · next e => simp at e; subst e; rw [if_pos (by rintro rfl; exact n1 rfl)]; exact h1
    · next e1 =>
      simp at e1; subst e1
      split at h2
      · next n2 => rw [if_pos n2]; exact h2
      · next e2 => simp at e2; subst e2; simp; exact strcmp_trans h1 h2

theorem strcmp_total : ∀ (x y : Bytes), strcmp x y ≤ 0 ∨ strcmp y x ≤ 0
  | [], [] => by simp [strcmp]
  | [], _ :: _ => by simp [strcmp]
  | _ :: _, [] => by simp [strcmp]
  | a :: x, b :: y => by
    rw [strcmp, strcmp]
    split
    · next n => rw [if_pos (fun e => n e.symm)]; omega
    · next e => simp at e; subst e; simp; exact strcmp_total x y

theorem insertName_perm (a : Bytes) : ∀ l, (insertName a l).Perm (a :: l)
  | [] => List.Perm.refl _
  | b :: l => by
    rw [insertName]; split
    · exact List.Perm.refl _
    · exact ((insertName_perm a l).cons b).trans (List.Perm.swap a b l)

theorem scandir_perm : ∀ names : List Bytes, (scandir names).Perm names
  | [] => List.Perm.refl _
  | a :: l => (insertName_perm a _).trans ((scandir_perm l).cons a)

theorem insertName_sorted (a : Bytes) : ∀ {l : List Bytes}, l.Pairwise (fun a b => strcmp a b ≤ 0) →
    (insertName a l).Pairwise (fun a b => strcmp a b ≤ 0)
  | [], _ => by simp [insertName]
  | b :: l, h => by
    obtain ⟨h1, h2⟩ := List.pairwise_cons.1 h
    rw [insertName]; split
    · next hab =>
      refine List.pairwise_cons.2 ⟨?_, h⟩
      intro c hc
      simp only [List.mem_cons] at hc
      rcases hc with rfl | hc
      · exact hab
      · exact strcmp_trans hab (h1 c hc)
    · next hab =>
      refine List.pairwise_cons.2 ⟨?_, insertName_sorted a h2⟩
      intro c hc
      have hc := (insertName_perm a l).mem_iff.1 hc
      simp only [List.mem_cons] at hc
      rcases hc with rfl | hc
      · exact (strcmp_total b c).resolve_right hab
      · exact h1 c hc

theorem scandir_sorted : ∀ names : List Bytes, (scandir names).Pairwise (fun a b => strcmp a b ≤ 0)
  | [] => List.Pairwise.nil
  | a :: l => insertName_sorted a (scandir_sorted l)

theorem findIndexLoop_eq : ∀ (l : List Bytes) (index : Nat) (ret : Bool), index < 2 ^ 32 → (∀ name ∈ l, ∀ c ∈ name, c ≠ 0) →
    l.Nodup → l.Pairwise (fun a b => strcmp a b ≤ 0) → (∀ k, DataFile l k → index < k ∨ index = 0) →
    ∃ last r, findIndexLoop l index ret = .ok (last, r) ∧ last < 2 ^ 32 ∧ (ret = false → r = false) ∧
      (ret = true → ∀ n, (r = true ∧ last = n) ↔ (n < 2 ^ 32 ∧ index ≤ n ∧ ∀ k, DataFile l k ↔ index < k ∧ k ≤ n)) := by
  intro l
  induction l with
  | nil =>
    intro index ret hi _ _ _ _
    refine ⟨index, ret, rfl, hi, id, ?_⟩
    intro hr n
    subst hr
    constructor
    · rintro ⟨_, rfl⟩
      refine ⟨hi, Nat.le_refl _, fun k => ?_⟩
      constructor
      · rintro ⟨_, _, hm, _⟩; cases hm
      · rintro ⟨_, _⟩; omega
    · rintro ⟨h1, h2, h3⟩
      refine ⟨rfl, ?_⟩
      have := h3 n
      simp [DataFile] at this
      omega
  | cons name l ih =>
    intro index ret hi hz hnd hs hinv
    have hz' : ∀ nm ∈ l, ∀ c ∈ nm, c ≠ 0 := fun nm hm => hz nm (by simp [hm])
    have hnd' := (List.nodup_cons.1 hnd).2
    have hs' := (List.pairwise_cons.1 hs).2
    obtain ⟨p, ep, hp⟩ := C37_parse name (hz name (by simp))
    rw [findIndexLoop, ep, Res.bind_ok]
    cases p with
    | none =>
      obtain ⟨last, r, e, h1, h2, h3⟩ := ih index ret hi hz' hnd' hs' (fun k ⟨a, nm, hm, hnk⟩ => hinv k ⟨a, nm, by simp [hm], hnk⟩)
      refine ⟨last, r, e, h1, h2, fun hr n => ?_⟩
      rw [h3 hr n]
      have : ∀ k, DataFile (name :: l) k ↔ DataFile l k := by
        intro k
        constructor
        · rintro ⟨hk, nm, hm, hn⟩
          refine ⟨hk, nm, ?_, hn⟩
          simp only [List.mem_cons] at hm
          rcases hm with rfl | hm
          · exact nomatch (hp k).2 ⟨hn, hk⟩
          · exact hm
        · rintro ⟨hk, nm, hm, hn⟩; exact ⟨hk, nm, by simp [hm], hn⟩
      simp only [this]
    | some num =>
      obtain ⟨hn, hlt⟩ := (hp num).1 rfl
      simp only
      -- everything in `l` is greater than `num`
      have hgt : ∀ k, DataFile l k → num < k := by
        rintro k ⟨hk, nm, hm, hnk⟩
        have h4 := (List.pairwise_cons.1 hs).1 nm hm
        have hd := strcmp_decimal (hn.1.trans hnk.1.symm) hn.2.1 hnk.2.1
        rw [hn.2.2, hnk.2.2] at hd
        rcases Nat.lt_or_ge num k with h5 | h5
        · exact h5
        · have h6 : strcmp name nm = 0 := by
            have : ¬ strcmp name nm < 0 := fun h => by have := hd.1.1 h; omega
            omega
          have h7 := strcmp_zero h6
          exact absurd (h7 ▸ hm) (List.nodup_cons.1 hnd).1
      obtain ⟨last, r, e, h1, h2, h3⟩ := ih num (if num ≠ (index + 1) % 2 ^ 32 then false else ret) hlt hz' hnd' hs' (fun k hk => Or.inl (hgt k hk))
      refine ⟨last, r, e, h1, ?_, ?_⟩
      · intro hr; refine h2 ?_; split <;> [rfl; exact hr]
      · intro hr n
        subst hr
        have hmem : ∀ k, DataFile (name :: l) k ↔ k = num ∨ DataFile l k := by
          intro k
          constructor
          · rintro ⟨hk, nm, hm, hnk⟩
            simp only [List.mem_cons] at hm
            rcases hm with rfl | hm
            · exact Or.inl (hnk.2.2.symm.trans hn.2.2)
            · exact Or.inr ⟨hk, nm, hm, hnk⟩
          · rintro (rfl | ⟨hk, nm, hm, hnk⟩)
            · exact ⟨hlt, name, by simp, hn⟩
            · exact ⟨hk, nm, by simp [hm], hnk⟩
        by_cases hc : num = index + 1
        · rw [if_neg (by rw [hc, Nat.mod_eq_of_lt (by omega)]; exact fun h => h rfl)] at h3 e
          rw [h3 rfl n]
          constructor
          · rintro ⟨a, b, c⟩
            refine ⟨a, by omega, fun k => ?_⟩
            rw [hmem, c]; omega
          · rintro ⟨a, b, c⟩
            have h5 := (c num).1 ((hmem num).2 (Or.inl rfl))
            refine ⟨a, by omega, fun k => ?_⟩
            constructor
            · intro hk; exact ⟨hgt k hk, ((c k).1 ((hmem k).2 (Or.inr hk))).2⟩
            · intro hk
              rcases (hmem k).1 ((c k).2 (by omega)) with h | h
              · omega
              · exact h
        · have hr : r = false := by
            apply h2
            rw [if_pos]
            intro h
            by_cases h32 : index + 1 < 2 ^ 32
            · rw [Nat.mod_eq_of_lt h32] at h; exact hc h
            · rw [show index + 1 = 2 ^ 32 by omega, Nat.mod_self] at h
              have := hinv num ⟨hlt, name, by simp, hn⟩
              omega
          rw [hr]
          refine ⟨fun h => (nomatch h.1), ?_⟩
          rintro ⟨a, b, c⟩
          exfalso
          have h5 := (c num).1 ((hmem num).2 (Or.inl rfl))
          rcases (hmem (index + 1)).1 ((c (index + 1)).2 (by omega)) with h | h
          · omega
          · have := hgt _ h; omega

/-- C38: for every directory (distinct C-string names, in any order),
`urkel_store_find_index` succeeds with `n` exactly when the data files present are
1, …, n; all other names are ignored. -/
theorem C38_find_index (names : List Bytes) (hnd : names.Nodup) (hz : ∀ name ∈ names, ∀ c ∈ name, c ≠ 0) :
    ∃ r, findIndex names = .ok r ∧ ∀ n, r = some n ↔ n < 2 ^ 32 ∧ ∀ k, DataFile names k ↔ 1 ≤ k ∧ k ≤ n := by
  have hp := scandir_perm names
  obtain ⟨last, r, e, h1, h2, h3⟩ := findIndexLoop_eq (scandir names) 0 true (by omega) (fun nm hm => hz nm (hp.mem_iff.1 hm))
    (hp.nodup_iff.2 hnd) (scandir_sorted names) (fun _ _ => Or.inr rfl)
  refine ⟨if r then some last else none, by simp [findIndex, e], fun n => ?_⟩
  have hd : ∀ k, DataFile names k ↔ DataFile (scandir names) k := by
    intro k; simp only [DataFile, hp.mem_iff]
  have h4 := h3 rfl n
  simp only [Nat.zero_le, true_and] at h4
  simp only [hd]
  rw [show (∀ k, DataFile (scandir names) k ↔ 1 ≤ k ∧ k ≤ n) ↔ (∀ k, DataFile (scandir names) k ↔ 0 < k ∧ k ≤ n) from Iff.rfl, ← h4]
  cases r <;> simp

/-- The listing of a database with two data files and a foreign file. -/
example : findIndex ["lock".toUTF8.toList, "0000000002".toUTF8.toList, "meta".toUTF8.toList, "0000000001".toUTF8.toList,
    "notes".toUTF8.toList] = .ok (some 2) := by decide +kernel
example : findIndex ["0000000003".toUTF8.toList, "0000000001".toUTF8.toList] = .ok none := by decide +kernel

/-! ### C45 -/

/-- What `urkel_store_path` must produce: prefix, separator, name, terminator at the
start of the buffer. -/
def HoldsPath (buf pfx name : Bytes) : Prop := (pfx ++ [47] ++ name ++ [0]) <+: buf

theorem wrMany_ok : ∀ (xs b : Bytes) (i : Nat), i + xs.length ≤ b.length →
    wrMany b i xs = .ok (b.take i ++ xs ++ b.drop (i + xs.length)) := by
  intro xs
  induction xs with
  | nil => intro b i h; simp [wrMany]
  | cons x xs ih =>
    intro b i h
    simp only [List.length_cons] at h
    rw [wrMany, wrAt, if_pos (by omega), Res.bind_ok, ih _ _ (by simp; omega)]
    congr 1
    rw [List.take_set, List.drop_set, if_pos (by omega)]
    rw [List.take_add_one, List.set_append_right _ _ (by simp)]
    rw [List.getElem?_eq_getElem (by omega)]
    simp only [List.length_take, Option.toList_some, List.length_cons]
    rw [show i - min i b.length = 0 by omega]
    simp [Nat.add_assoc, Nat.add_comm 1]

theorem wrMany_ub : ∀ (xs b : Bytes) (i : Nat), b.length < i + xs.length → i ≤ b.length → wrMany b i xs = .ub := by
  intro xs
  induction xs with
  | nil => intro b i h h2; simp at h; omega
  | cons x xs ih =>
    intro b i h h2
    simp only [List.length_cons] at h
    rw [wrMany, wrAt]
    split
    · rw [Res.bind_ok]; exact ih _ _ (by simp; omega) (by simp; omega)
    · rfl

theorem storePath_eq (pfx buf name : Bytes) : storePath pfx buf name = wrMany buf 0 (pfx ++ [47] ++ name ++ [0]) := by
  have app : ∀ (xs ys b : Bytes) (i : Nat), wrMany b i (xs ++ ys) = (wrMany b i xs >>= fun b => wrMany b (i + xs.length) ys) := by
    intro xs
    induction xs with
    | nil => intro ys b i; simp [wrMany]
    | cons x xs ih =>
      intro ys b i
      simp only [List.cons_append, wrMany]
      cases wrAt b i x with
      | ok b => simp only [Res.bind_ok]; rw [ih]; simp only [List.length_cons]; rw [show i + 1 + xs.length = i + (xs.length + 1) by omega]
      | err e => rfl
      | abort => rfl
      | ub => rfl
  have one : ∀ b i x, wrMany b i [x] = wrAt b i x := by
    intro b i x
    simp only [wrMany]
    cases wrAt b i x <;> rfl
  have assoc : ∀ {α β γ : Type} (x : Res α) (f : α → Res β) (g : β → Res γ), ((x >>= f) >>= g) = (x >>= fun a => f a >>= g) := by
    intro α β γ x f g; cases x <;> rfl
  rw [app, app, app, assoc, assoc]
  simp only [assoc, one, storePath, Nat.zero_add, List.length_append, List.length_singleton]

/-- C45 (partial): for every accepted prefix of at most 1013 bytes, every path the
store builds (a data file, or the four-letter names "meta" and "lock") fits the
buffer of PATH_MAX + 1 bytes and is the intended path. Missing: the accepted
prefixes of 1014 bytes, for which it is false. -/
theorem C45_paths_partial (pfx buf : Bytes) (h : initPrefix pfx = some pfx) (hp : pfx.length ≤ 1013) (hb : buf.length = pathMax + 1) :
    (∀ index, index < 2 ^ 32 → ∃ name out, IsName name index ∧ storePathIndex pfx buf index = .ok out ∧ out.length = buf.length ∧
      HoldsPath out pfx name) ∧
    (∀ name, name.length = 4 → ∃ out, storePath pfx buf name = .ok out ∧ out.length = buf.length ∧ HoldsPath out pfx name) := by
  have key : ∀ name : Bytes, name.length ≤ 10 → ∃ out, storePath pfx buf name = .ok out ∧ out.length = buf.length ∧ HoldsPath out pfx name := by
    intro name hn
    rw [storePath_eq, wrMany_ok _ _ _ (by simp [hb, pathMax]; omega)]
    refine ⟨_, rfl, ?_, ?_⟩
    · simp [hb, pathMax]; omega
    · simp [HoldsPath]
  refine ⟨fun index hi => ?_, fun name hn => key name (by omega)⟩
  obtain ⟨name, e, hn⟩ := C37_serialize index hi
  rw [storePathIndex, e, List.take_left' hn.1]
  obtain ⟨out, h1, h2, h3⟩ := key name (by rw [hn.1])
  exact ⟨name, out, hn, h1, h2, h3⟩

/-- C45 is false: a prefix of 1014 bytes is accepted, and building the path of any
data file writes past the end of the buffer. -/
theorem C45_paths_false (pfx buf : Bytes) (hp : pfx.length = 1014) (hb : buf.length = pathMax + 1) :
    initPrefix pfx = some pfx ∧ ∀ index, index < 2 ^ 32 → storePathIndex pfx buf index = .ub := by
  refine ⟨by simp [initPrefix, hp, pathMax], fun index hi => ?_⟩
  obtain ⟨name, e, hn⟩ := C37_serialize index hi
  rw [storePathIndex, e, List.take_left' hn.1, storePath_eq]
  exact wrMany_ub _ _ _ (by simp [hb, pathMax, hp, hn.1]) (by omega)

/-- C45: exactly the prefixes of up to 1014 bytes are accepted, unchanged, so 1014 is
the only length at which the paths overflow. -/
theorem C45_accepted (pfx : Bytes) : (pfx.length ≤ 1014 → initPrefix pfx = some pfx) ∧ (1014 < pfx.length → initPrefix pfx = none) := by
  constructor <;> intro h
  · exact if_neg (by rw [pathMax]; omega)
  · exact if_pos (by rw [pathMax]; omega)

example : ∃ pfx buf : Bytes, pfx.length = 1014 ∧ buf.length = pathMax + 1 :=
  ⟨List.replicate 1014 97, List.replicate 1025 0, by rw [List.length_replicate], by rw [List.length_replicate]; rfl⟩

/-! ### C52 -/

theorem memcmpLoop_eq : ∀ (n : Nat) (px py x y : Bytes), px.length = py.length → x.length = n → y.length = n →
    ∀ tx ty : Bytes, ∃ r, memcmpLoop (px ++ x ++ tx) (py ++ y ++ ty) n px.length = .ok r ∧ (r = 0 ↔ x = y) ∧ (r < 0 ↔ x < y) := by
  intro n
  induction n with
  | zero =>
    intro px py x y hp hx hy tx ty
    obtain rfl := List.length_eq_zero_iff.1 hx
    obtain rfl := List.length_eq_zero_iff.1 hy
    exact ⟨0, rfl, by simp, by simp⟩
  | succ n ih =>
    intro px py x y hp hx hy tx ty
    obtain ⟨a, x, rfl⟩ := List.exists_cons_of_length_eq_add_one hx
    obtain ⟨b, y, rfl⟩ := List.exists_cons_of_length_eq_add_one hy
    rw [memcmpLoop, List.append_assoc, List.cons_append, rdAt_mid, Res.bind_ok, List.append_assoc, List.cons_append, hp, rdAt_mid, Res.bind_ok]
    split
    · next hne =>
      have hne' : a.toNat ≠ b.toNat := fun e => hne (UInt8.toNat_inj.1 e)
      refine ⟨_, rfl, ?_, ?_⟩
      · simp [hne]; omega
      · rw [List.cons_lt_cons_iff]
        simp only [UInt8.lt_iff_toNat_lt, hne, false_and, or_false]
        omega
    · next he =>
      have he : a = b := by simpa using he
      subst he
      obtain ⟨r, e, h1, h2⟩ := ih (px ++ [a]) (py ++ [a]) x y (by simp [hp]) (by simpa using hx) (by simpa using hy) tx ty
      refine ⟨r, ?_, ?_, ?_⟩
      · rw [← e]; simp [hp]
      · rw [h1]; simp
      · rw [h2, List.cons_lt_cons_iff]; simp

/-- C52: on buffers of at least `n` bytes, `urkel_memcmp` stays inside them; it is
zero exactly when their first `n` bytes agree, and negative exactly when those of the
first precede those of the second lexicographically. -/
theorem C52_memcmp (x y : Bytes) (n : Nat) (hx : n ≤ x.length) (hy : n ≤ y.length) :
    ∃ r, urkelMemcmp x y n = .ok r ∧ (r = 0 ↔ x.take n = y.take n) ∧ (r < 0 ↔ x.take n < y.take n) := by
  obtain ⟨r, e, h⟩ := memcmpLoop_eq n [] [] (x.take n) (y.take n) rfl (by simp; omega) (by simp; omega) (x.drop n) (y.drop n)
  refine ⟨r, ?_, h⟩
  rw [List.nil_append, List.nil_append, List.take_append_drop, List.take_append_drop] at e
  exact e

/-- The value of a hexadecimal digit of either case. -/
def hexVal (c : UInt8) : Option Nat :=
  if 48 ≤ c.toNat ∧ c.toNat ≤ 57 then some (c.toNat - 48)
  else if 65 ≤ c.toNat ∧ c.toNat ≤ 70 then some (c.toNat - 55)
  else if 97 ≤ c.toNat ∧ c.toNat ≤ 102 then some (c.toNat - 87)
  else none

/-- The bytes a string of hexadecimal digit pairs denotes. -/
def hexBytes : Bytes → Option Bytes
  | [] => some []
  | [_] => none
  | a :: b :: s =>
    match hexVal a, hexVal b, hexBytes s with
    | some x, some y, some d => some (UInt8.ofNat (16 * x + y) :: d)
    | _, _, _ => none

theorem forall_u8 {p : UInt8 → Prop} [DecidablePred p] (h : ∀ n : Fin 256, p (UInt8.ofNat n.val)) (c : UInt8) : p c := by
  have := h ⟨c.toNat, c.toNat_lt⟩
  simpa using this

theorem table_cases (c : UInt8) : (hexVal c = none ∧ base16Table c = 255) ∨
    ∃ x, hexVal c = some x ∧ x < 16 ∧ base16Table c = UInt8.ofNat x := by
  unfold hexVal base16Table
  have hsub : ∀ k : Nat, k ≤ c.toNat → k < 256 → c - UInt8.ofNat k = UInt8.ofNat (c.toNat - k) := by
    intro k hk hk2
    apply UInt8.toNat_inj.1
    rw [UInt8.toNat_sub_of_le, UInt8.toNat_ofNat', UInt8.toNat_ofNat', Nat.mod_eq_of_lt hk2, Nat.mod_eq_of_lt (by have := c.toNat_lt; omega)]
    rw [UInt8.le_iff_toNat_le, UInt8.toNat_ofNat', Nat.mod_eq_of_lt hk2]; exact hk
  split
  · exact Or.inr ⟨_, rfl, by omega, hsub 48 (by omega) (by omega)⟩
  · split
    · exact Or.inr ⟨_, rfl, by omega, hsub 55 (by omega) (by omega)⟩
    · split
      · exact Or.inr ⟨_, rfl, by omega, hsub 87 (by omega) (by omega)⟩
      · exact Or.inl ⟨rfl, rfl⟩

theorem nibbles : ∀ x y : Fin 16, (UInt8.ofNat x.val <<< 4) ||| UInt8.ofNat y.val = UInt8.ofNat (16 * x.val + y.val) ∧
    (UInt8.ofNat x.val ||| UInt8.ofNat y.val) &&& 0x80 = 0 := by decide

theorem top_iff (u : UInt8) : u &&& 0x80 = 0 ↔ u.toNat < 128 := by
  revert u; exact forall_u8 (p := fun u => u &&& 0x80 = 0 ↔ u.toNat < 128) (by decide +kernel)

theorem top_or (u v : UInt8) : (u ||| v).toNat < 128 ↔ u.toNat < 128 ∧ v.toNat < 128 := by
  rw [UInt8.toNat_or]
  constructor
  · intro h
    exact ⟨Nat.lt_of_le_of_lt Nat.left_le_or h, Nat.lt_of_le_of_lt Nat.right_le_or h⟩
  · rintro ⟨h1, h2⟩
    exact Nat.or_lt_two_pow (n := 7) h1 h2

theorem u8_small {x : Nat} (h : x < 16) : (UInt8.ofNat x).toNat < 128 := by
  rw [UInt8.toNat_ofNat']; omega

/-- Decoding accepts exactly the digit pairs, and yields the bytes they denote. -/
theorem base16Loop_eq : ∀ (src : Bytes), src.length % 2 = 0 → ∀ (z : UInt8) (dst : Bytes),
    match hexBytes src with
    | some d => ∃ z', base16Loop src z dst = (z', dst ++ d) ∧ (z'.toNat < 128 ↔ z.toNat < 128)
    | none => ∃ z' d, base16Loop src z dst = (z', d) ∧ ¬ z'.toNat < 128
  | [], _, z, dst => by simp [hexBytes, base16Loop]
  | [a], h, _, _ => by simp at h
  | a :: b :: s, h, z, dst => by
    have ih := base16Loop_eq s (by simp at h; omega) (z ||| base16Table a ||| base16Table b) (dst ++ [(base16Table a <<< 4) ||| base16Table b])
    rw [hexBytes, base16Loop]
    -- a bad digit leaves the top bit of `z` set
    have bad : ¬ (z ||| base16Table a ||| base16Table b).toNat < 128 →
        ∃ z' d, base16Loop s (z ||| base16Table a ||| base16Table b) (dst ++ [(base16Table a <<< 4) ||| base16Table b]) = (z', d) ∧
          ¬ z'.toNat < 128 := by
      intro hz
      cases e : hexBytes s with
      | none => rw [e] at ih; exact ih
      | some d =>
        rw [e] at ih
        obtain ⟨z', e', h'⟩ := ih
        exact ⟨z', _, e', fun h => hz (h'.1 h)⟩
    rcases table_cases a with ⟨ha, ta⟩ | ⟨x, ha, hx, ta⟩
    · rw [ha]
      exact bad (by rw [top_or, top_or, ta]; simp)
    · rcases table_cases b with ⟨hb, tb⟩ | ⟨y, hb, hy, tb⟩
      · rw [ha, hb]
        exact bad (by rw [top_or, top_or, tb]; simp)
      · rw [ha, hb]
        cases e : hexBytes s with
        | none => rw [e] at ih; exact ih
        | some d =>
          rw [e] at ih
          obtain ⟨z', e', h'⟩ := ih
          refine ⟨z', ?_, ?_⟩
          · rw [e', ta, tb, (nibbles ⟨x, hx⟩ ⟨y, hy⟩).1]; simp
          · rw [h', top_or, top_or, ta, tb]
            have := u8_small hx
            have := u8_small hy
            omega

theorem hexBytes_length : ∀ {s d : Bytes}, hexBytes s = some d → s.length = 2 * d.length
  | [], d, h => by simp [hexBytes] at h; subst h; rfl
  | [_], _, h => by simp [hexBytes] at h
  | a :: b :: s, d, h => by
    rw [hexBytes] at h
    split at h
    · next e =>
      injection h with h
      subst h
      have := hexBytes_length e
      simp only [List.length_cons]; omega
    · cases h

/-- C52: decoding into a buffer of `n` bytes accepts exactly the strings of
hexadecimal digit pairs that fit, and yields the bytes they denote. -/
theorem C52_base16_decode (n : Nat) (s : Bytes) (d : Bytes) :
    base16Decode n s = some d ↔ hexBytes s = some d ∧ d.length ≤ n := by
  rw [base16Decode]
  split
  · next ho =>
    refine ⟨fun h => (nomatch h), fun h => ?_⟩
    have := hexBytes_length h.1
    omega
  · next he =>
    split
    · next hl =>
      refine ⟨fun h => (nomatch h), fun h => ?_⟩
      have := hexBytes_length h.1
      omega
    · next hl =>
      have h := base16Loop_eq s (by omega) 0 []
      cases e : hexBytes s with
      | none =>
        rw [e] at h
        obtain ⟨z', d', e', hz⟩ := h
        simp only [e', ne_eq, top_iff, hz, not_false_eq_true, if_true, reduceCtorEq, false_and]
      | some d' =>
        rw [e] at h
        obtain ⟨z', e', hz⟩ := h
        have hz : z'.toNat < 128 := hz.2 (by decide)
        have := hexBytes_length e
        simp only [e', ne_eq, top_iff, hz, not_true_eq_false, if_false, List.nil_append, Option.some.injEq]
        constructor
        · rintro rfl; exact ⟨rfl, by omega⟩
        · exact fun h => h.1

theorem hexBytes_encode : ∀ d : Bytes, hexBytes (base16Encode d) = some d
  | [] => rfl
  | b :: d => by
    have h1 : ∀ x : Fin 16, hexVal (base16Charset.getD x.val 0) = some x.val := by decide +kernel
    have hb := b.toNat_lt
    rw [base16Encode, hexBytes, hexBytes_encode d, h1 ⟨b.toNat / 16, by omega⟩, h1 ⟨b.toNat % 16, by omega⟩]
    simp only [Option.some.injEq, List.cons.injEq, and_true]
    rw [Nat.div_add_mod]; simp

/-- C52: decoding undoes encoding, for every buffer that fits. -/
theorem C52_base16_roundtrip (n : Nat) (d : Bytes) (h : d.length ≤ n) : base16Decode n (base16Encode d) = some d :=
  (C52_base16_decode n _ d).2 ⟨hexBytes_encode d, h⟩

/-- C52: keys and hashes on the command line are exactly 64 hexadecimal digits. -/
theorem C52_base16_decode32 (s d : Bytes) : base16Decode32 s = some d ↔ hexBytes s = some d ∧ d.length = 32 := by
  rw [base16Decode32]
  cases e : base16Decode 32 s with
  | none =>
    refine ⟨fun h => (nomatch h), fun h => ?_⟩
    rw [(C52_base16_decode 32 s d).2 ⟨h.1, by omega⟩] at e
    cases e
  | some x =>
    obtain ⟨h1, h2⟩ := (C52_base16_decode 32 s x).1 e
    rw [h1]
    constructor
    · intro h
      simp only at h
      split at h
      · next hx => cases h; exact ⟨rfl, hx⟩
      · cases h
    · intro ⟨a, b⟩
      cases a
      simp [b]

example (d : Bytes) (h : d.length = 32) : base16Decode32 (base16Encode d) = some d :=
  (C52_base16_decode32 _ d).2 ⟨hexBytes_encode d, h⟩

/-- Lower case of a hexadecimal digit. -/
def lowerHex (c : UInt8) : UInt8 := if 65 ≤ c.toNat ∧ c.toNat ≤ 70 then c + 32 else c

theorem charset_hex (a : UInt8) (x : Nat) (h : hexVal a = some x) : x < 16 ∧ base16Charset.getD x 0 = lowerHex a := by
  have h2 : ∀ a : Fin 256, ∀ x, hexVal (UInt8.ofNat a.val) = some x → x < 16 ∧ base16Charset.getD x 0 = lowerHex (UInt8.ofNat a.val) := by
    have h3 : ∀ a : Fin 256, (match hexVal (UInt8.ofNat a.val) with
      | some x => decide (x < 16 ∧ base16Charset.getD x 0 = lowerHex (UInt8.ofNat a.val)) | none => true) = true := by decide +kernel
    intro a x hx
    have := h3 a
    rw [hx] at this
    simpa using this
  have := h2 ⟨a.toNat, a.toNat_lt⟩ x (by simpa using h)
  simpa using this

/-- C52: encoding undoes decoding, up to the case of the digits. -/
theorem C52_base16_encode : ∀ (n : Nat) (s d : Bytes), base16Decode n s = some d → base16Encode d = s.map lowerHex := by
  have key : ∀ (s d : Bytes), hexBytes s = some d → base16Encode d = s.map lowerHex := by
    intro s
    induction s using hexBytes.induct with
    | case1 => intro d h; simp [hexBytes] at h; subst h; rfl
    | case2 => intro d h; simp [hexBytes] at h
    | case3 a b s x y d0 hd hy hx ih =>
      intro d h
      rw [hexBytes, hx, hy, hd] at h
      injection h with h
      subst h
      obtain ⟨x16, ex⟩ := charset_hex a x hx
      obtain ⟨y16, ey⟩ := charset_hex b y hy
      rw [base16Encode, UInt8.toNat_ofNat', Nat.mod_eq_of_lt (by omega), show (16 * x + y) / 16 = x by omega, show (16 * x + y) % 16 = y by omega,
        ex, ey, ih d0 hd]
      rfl
    | case4 a b s hno _ =>
      intro d h
      rw [hexBytes] at h
      split at h
      · next x y d0 e1 e2 e3 => exact absurd e3 (hno x y d0 e1 e2)
      · cases h
  intro n s d h
  exact key s d ((C52_base16_decode n s d).1 h).1

example : base16Decode 32 "00fFa9".toUTF8.toList = some [0, 255, 169] := by decide +kernel

end Urkel
