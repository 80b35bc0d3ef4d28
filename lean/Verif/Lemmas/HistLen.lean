import Verif.Lemmas.History
import Mathlib.Data.List.Perm.Subperm
/-
A commit record is in the chain of commits only once, so that there are not more commits than bytes.
-/
namespace Urkel
open PTree

theorem HistAt.len_unique {E : Env} (hE : EnvOk E) {key : B32} {rd : Rd} : ∀ {a b : List PTree} {p q : Ptr}, HistAt E key rd p a → HistAt E key rd q b →
    p.index = q.index → p.pos = q.pos → a.length = b.length
  | [], [], _, _, _, _, _, _ => rfl
  | [], _ :: _, p, q, h1, h2, e1, _ => by
    have : p.index = 0 := by rw [show p = nowhere from h1]; rfl
    have := h2.1
    omega
  | _ :: _, [], p, q, h1, h2, e1, _ => by
    have : q.index = 0 := by rw [show q = nowhere from h2]; rfl
    have := h1.1
    omega
  | _ :: a, _ :: b, p, q, h1, h2, e1, e2 => by
    obtain ⟨_, m, r1, o1, o2, _, c1⟩ := h1
    obtain ⟨_, m', r2, o1', o2', _, c2⟩ := h2
    rw [e1, e2, r2] at r1
    have hw := Option.some.inj r1
    have w1 := metaRead_write hE.mac key Meta.init o1 o2
    have w2 := metaRead_write hE.mac key Meta.init o1' o2'
    rw [hw, w1] at w2
    injection w2 with w2
    have hm : m.metaPtr = m'.metaPtr := congrArg (fun x : Bool × Meta => x.2.metaPtr) w2
    rw [hm] at c1
    have := HistAt.len_unique hE c1 c2 rfl rfl
    simp [this]


/-- All positions in all files. -/
def allPos (files : List Bytes) (i : Nat) : List (Nat × Nat) :=
  match files with
  | [] => []
  | f :: fs => (List.range f.length).map (fun j => (i, j)) ++ allPos fs (i + 1)

theorem allPos_length (files : List Bytes) (i : Nat) : (allPos files i).length = totalBytes files := by
  induction files generalizing i with
  | nil => rfl
  | cons f fs ih => simp [allPos, ih, totalBytes]

theorem mem_allPos {files : List Bytes} {i a b : Nat} {f : Bytes} (h : files[a]? = some f) (hb : b < f.length) : (i + a, b) ∈ allPos files i := by
  induction files generalizing i a with
  | nil => simp at h
  | cons g gs ih =>
    cases a with
    | zero =>
      simp only [List.getElem?_cons_zero, Option.some.injEq] at h
      subst h
      exact List.mem_append_left _ (List.mem_map.2 ⟨b, List.mem_range.2 hb, rfl⟩)
    | succ a =>
      rw [List.getElem?_cons_succ] at h
      have := ih (i := i + 1) h
      rw [show i + 1 + a = i + (a + 1) by omega] at this
      exact List.mem_append_right _ this

/-- The places of the commit records. -/
theorem HistAt.places {E : Env} (hE : EnvOk E) {key : B32} {rd : Rd} : ∀ {hist : List PTree} {p : Ptr}, HistAt E key rd p hist →
    ∃ ps : List (Nat × Nat), ps.length = hist.length ∧ ps.Nodup ∧
      ∀ x ∈ ps, ∃ (q : Ptr) (h : List PTree) (d : Bytes), x = (q.index, q.pos) ∧ HistAt E key rd q h ∧ h.length ≤ hist.length ∧ h ≠ [] ∧ 1 ≤ q.index ∧
        rd ⟨q.index, q.pos, metaSize⟩ = some d
  | [], _, _ => ⟨[], rfl, .nil, by simp⟩
  | t :: ts, p, h => by
    have h0 := h
    obtain ⟨⟨h1, h2⟩, m, h3, o1, o2, _, h4⟩ := h
    obtain ⟨ps, e, nd, hp⟩ := HistAt.places hE h4
    refine ⟨(p.index, p.pos) :: ps, by simp [e], List.nodup_cons.2 ⟨fun hm => ?_, nd⟩, ?_⟩
    · obtain ⟨q, h, d, e1, hq, hl, _, _, _⟩ := hp _ hm
      have := HistAt.len_unique hE h0 hq (congrArg Prod.fst e1) (congrArg Prod.snd e1)
      simp at this
      omega
    · intro x hx
      rcases List.mem_cons.1 hx with rfl | hx
      · exact ⟨p, t :: ts, _, rfl, h0, Nat.le_refl _, by simp, h1, h3⟩
      · obtain ⟨q, h, d, e1, hq, hl, a, b, c⟩ := hp x hx
        exact ⟨q, h, d, e1, hq, by simp; omega, a, b, c⟩

theorem HistAt.count {E : Env} (hE : EnvOk E) {key : B32} {files : List Bytes} {p : Ptr} {hist : List PTree} (h : HistAt E key (vrd files) p hist) :
    hist.length ≤ totalBytes files := by
  obtain ⟨ps, e, nd, hp⟩ := h.places hE
  rw [← e, ← allPos_length files 1]
  refine (List.subperm_of_subset nd fun x hx => ?_).length_le
  obtain ⟨q, _, d, rfl, _, _, _, h1, h2⟩ := hp x hx
  unfold vrd at h2
  dsimp only at h2
  rw [if_neg (by omega)] at h2
  cases hf : files[q.index - 1]? with
  | none => rw [hf] at h2; cases h2
  | some f =>
    rw [hf] at h2
    dsimp only at h2
    rw [if_neg (by decide)] at h2
    split at h2
    · cases h2
    · next hl =>
      have hm : metaSize = 38 := rfl
      have := mem_allPos (i := 1) hf (b := q.pos) (by omega)
      rw [show 1 + (q.index - 1) = q.index by omega] at this
      exact this

end Urkel
