import Verif.Props.Damage
import Verif.Lemmas.Walk
/-
C70: iterating over any database, damaged or not.
-/
namespace Urkel

section
variable {E : Env} {s : Sys} {id : Nat} {n : Node}

theorem iterCalls_walk (hw : Worn E s) (ht : s.txs id = some ⟨some n⟩) :
    ∃ it, iterCreate ⟨some n⟩ = .ok it ∧ ∀ m, iterCalls it (List.replicate m s.db) = played (walk s.db.store 256 n) m :=
  ⟨⟨n, none, [], false⟩, rfl, fun m => iterCalls_left m _ _ (.inr (.inl ⟨rfl, rfl, hw.held.txs id _ ht n rfl, rfl⟩))⟩

/-- C70: whatever the data files contain, an iterator returns the pairs of the tree from left
to right, with ECORRUPTION once for each node and each value that cannot be read, goes on after
it, and then returns EITEREND for ever; the process is aborted when it comes to a record with a
path longer than a key, or when the stack of 256 frames is full. -/
theorem C70_iteration (hw : Worn E s) (ht : s.txs id = some ⟨some n⟩) :
    ∃ it, iterCreate ⟨some n⟩ = .ok it ∧ ∀ m, iterCalls it (List.replicate m s.db) = played (walk s.db.store 256 n) m := iterCalls_walk hw ht

theorem abort_mem_walk (st : Store) : ∀ (room : Nat) (n : Node), Ev.abort ∈ walk st room n ↔
    (∃ x, Under st n room x) ∨ ∃ j h p, j < room ∧ Under st n j (.hash h p) ∧ LongRecord st p := by
  intro room
  induction room with
  | zero => intro n; exact ⟨fun _ => .inl ⟨n, .here n⟩, fun _ => by rw [walk]; exact List.mem_singleton.2 rfl⟩
  | succ room ih =>
    intro n
    cases n with
    | null =>
      rw [walk]
      refine ⟨(nomatch ·), ?_⟩
      rintro (⟨x, h⟩ | ⟨j, h, p, hj, hu, _⟩)
      · cases h
      · cases hu
    | leaf h p k v vp =>
      refine ⟨fun hm => ?_, ?_⟩
      · rw [walk] at hm
        revert hm
        split <;> intro hm <;> cases List.mem_singleton.1 hm
      · rintro (⟨x, h⟩ | ⟨j, h, p, hj, hu, _⟩)
        · cases h
        · cases hu
    | internal h p pre l r =>
      rw [walk, List.mem_append, ih, ih]
      constructor
      · rintro ((⟨x, hx⟩ | ⟨j, a, b, hj, hu, hl⟩) | (⟨x, hx⟩ | ⟨j, a, b, hj, hu, hl⟩))
        · exact .inl ⟨x, .left hx⟩
        · exact .inr ⟨j + 1, a, b, by omega, .left hu, hl⟩
        · exact .inl ⟨x, .right hx⟩
        · exact .inr ⟨j + 1, a, b, by omega, .right hu, hl⟩
      · rintro (⟨x, hx⟩ | ⟨j, a, b, hj, hu, hl⟩)
        · cases hx with
          | left h => exact .inl (.inl ⟨x, h⟩)
          | right h => exact .inr (.inl ⟨x, h⟩)
        · cases hu with
          | left h => exact .inl (.inr ⟨_, a, b, by omega, h, hl⟩)
          | right h => exact .inr (.inr ⟨_, a, b, by omega, h, hl⟩)
    | hash h p =>
      rw [walk]
      rcases storeResolve_cases st h p with ⟨e, hl⟩ | ⟨hnl, e | ⟨n0, e, hfit, hl'⟩⟩
      · rw [e]
        exact ⟨fun _ => .inr ⟨0, h, p, by omega, .here _, hl⟩, fun _ => List.mem_singleton.2 rfl⟩
      · rw [e]
        refine ⟨fun hm => (by cases List.mem_singleton.1 hm), ?_⟩
        rintro (⟨x, hx⟩ | ⟨j, a, b, hj, hu, hl⟩)
        · cases hx with
          | load h1 h2 => rw [e] at h1; cases h1
        · cases hu with
          | here => exact absurd hl hnl
          | load h1 h2 => rw [e] at h1; cases h1
      · rw [e]
        dsimp only
        rw [ih]
        constructor
        · rintro (⟨x, hx⟩ | ⟨j, a, b, hj, hu, hl⟩)
          · exact .inl ⟨x, .load e hx⟩
          · exact .inr ⟨j + 1, a, b, by omega, .load e hu, hl⟩
        · rintro (⟨x, hx⟩ | ⟨j, a, b, hj, hu, hl⟩)
          · cases hx with
            | load h1 h2 => rw [e] at h1; cases h1; exact .inl ⟨x, h2⟩
          · cases hu with
            | here => exact absurd hl hnl
            | load h1 h2 => rw [e] at h1; cases h1; exact .inr ⟨_, a, b, by omega, h2, hl⟩

theorem played_aborts (l : List Ev) : (∃ m, played l m = .abort) ↔ Ev.abort ∈ l := by
  have fatal : ∀ e : Ev, e.fatal = true ↔ e = .abort := fun e => by cases e <;> simp [Ev.fatal]
  constructor
  · rintro ⟨m, h⟩
    unfold played at h
    split at h
    · rename_i hc
      obtain ⟨e, he, hf⟩ := List.any_eq_true.1 hc
      rw [(fatal e).1 hf] at he
      exact List.mem_of_mem_take he
    · cases h
  · intro h
    refine ⟨l.length, ?_⟩
    unfold played
    rw [if_pos]
    rw [List.take_length]
    exact List.any_eq_true.2 ⟨_, h, rfl⟩

/-- C70, when it is not survived: going through the whole database aborts the process exactly
if there is a node 256 steps below the root, or, before that, a record with a path longer than
a key. -/
theorem C70_aborts (hw : Worn E s) (ht : s.txs id = some ⟨some n⟩) :
    ∃ it, iterCreate ⟨some n⟩ = .ok it ∧ ((∃ m, iterCalls it (List.replicate m s.db) = .abort) ↔
      (∃ x, Under s.db.store n 256 x) ∨ ∃ j h p, j < 256 ∧ Under s.db.store n j (.hash h p) ∧ LongRecord s.db.store p) := by
  obtain ⟨it, e, h⟩ := iterCalls_walk hw ht
  refine ⟨it, e, ?_⟩
  simp only [h]
  rw [played_aborts, abort_mem_walk]

/-- C70: there is no undefined behaviour, and an error code is all that damage leads to. -/
theorem C70_defined (hw : Worn E s) (ht : s.txs id = some ⟨some n⟩) :
    ∃ it, iterCreate ⟨some n⟩ = .ok it ∧ ∀ m, iterCalls it (List.replicate m s.db) = .abort ∨
      ∃ rs, iterCalls it (List.replicate m s.db) = .ok rs ∧ rs.length = m := by
  obtain ⟨it, e, h⟩ := iterCalls_walk hw ht
  refine ⟨it, e, fun m => ?_⟩
  rw [h]
  unfold played
  split
  · exact .inl rfl
  · exact .inr ⟨_, rfl, by simp⟩

end

/-! ### Concrete damage -/

/-- Iterating over the damaged database of Props/Damage.lean. -/
def wornCalls (d : Bytes) (m : Nat) : Res (List (Except Err (B32 × Bytes))) :=
  iterCreate rotTx1 >>= fun it => iterCalls it (List.replicate m (wornDb d))

theorem worn_iterate : wornCalls (rotByte 40 0) 3 = .ok [.ok (rotK, []), .error .ECORRUPTION, .error .EITEREND] ∧
    wornCalls (rotByte 0 0) 3 = .ok [.error .ECORRUPTION, .ok (rotK', []), .error .EITEREND] := by decide +kernel

/-- One damaged byte: the iteration reports it and goes on with the next key. -/
example : ∃ s n it, Worn toyEnv s ∧ s.txs 0 = some ⟨some n⟩ ∧ iterCreate ⟨some n⟩ = .ok it ∧
    iterCalls it (List.replicate 3 s.db) = .ok [.error .ECORRUPTION, .ok (rotK', []), .error .EITEREND] := by
  obtain ⟨s, n, hw, hdb, ht1, ht⟩ := worn_exists (d := rotByte 0 0) (by decide +kernel)
  obtain ⟨it, e, _⟩ := C70_iteration hw ht
  have h := worn_iterate.2
  have hn : rotTx1 = ⟨some n⟩ := by rw [ht1] at ht; exact Option.some.inj ht
  unfold wornCalls at h
  rw [hn, e, Res.bind_ok] at h
  exact ⟨s, n, it, hw, ht, e, by rw [hdb]; exact h⟩

/-- A record with a long path: the process is aborted. -/
example : ∃ s n it m, Worn toyEnv s ∧ s.txs 0 = some ⟨some n⟩ ∧ iterCreate ⟨some n⟩ = .ok it ∧ iterCalls it (List.replicate m s.db) = .abort := by
  obtain ⟨s, n, hw, hdb, ht1, ht⟩ := worn_exists rot_lengths.1
  have hn : rotTx1 = ⟨some n⟩ := by rw [ht1] at ht; exact Option.some.inj ht
  have h : wornCalls rotLong 3 = .abort := by decide +kernel
  obtain ⟨it, e, _⟩ := C70_iteration hw ht
  unfold wornCalls at h
  rw [hn, e, Res.bind_ok] at h
  exact ⟨s, n, it, 3, hw, ht, e, by rw [hdb]; exact h⟩

end Urkel
