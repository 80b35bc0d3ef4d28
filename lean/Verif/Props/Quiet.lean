import Verif.Lemmas.Quiet
import Verif.Props.Damage
/-
C72: calls that only look change nothing, also on damaged files.
-/
namespace Urkel

variable {E : Env}

theorem observes_alike {s : Sys} {es : List Event} {as : List Answer} {db : Db} (o : Observes E s es as db) :
    ∀ {s' : Sys}, Held s → Held s' → SysAlike E.H s s' → Observes E s' es as db := by
  induction o with
  | done s => intro s' _ _ h; rw [h.1]; exact .done s'
  | @call s s1 op r es as db e o ih =>
    intro s' h1 h2 h
    have := step_alike h h1 h2 op
    rw [e] at this
    cases e' : step E s' op with
    | ok x =>
      rw [e'] at this
      obtain ⟨s1', r'⟩ := x
      obtain ⟨rfl, h'⟩ := this
      exact .call e' (ih (step_held h1 e) (step_held h2 e') h')
    | _ => rw [e'] at this; exact this.elim
  | @aborts s op e =>
    intro s' h1 h2 h
    have := step_alike h h1 h2 op
    rw [e] at this
    rw [h.1]
    cases e' : step E s' op <;> rw [e'] at this <;> first | exact .aborts e' | exact this.elim
  | @undefined s op e =>
    intro s' h1 h2 h
    have := step_alike h h1 h2 op
    rw [e] at this
    rw [h.1]
    cases e' : step E s' op <;> rw [e'] at this <;> first | exact .undefined e' | exact this.elim
  | @refused s op er e =>
    intro s' h1 h2 h
    have := step_alike h h1 h2 op
    rw [e] at this
    rw [h.1]
    cases e' : step E s' op <;> rw [e'] at this <;> first | exact this.elim | skip
    obtain rfl : _ = _ := this
    exact .refused e'
  | @rot s files es as db hl o ih =>
    intro s' h1 h2 h
    have hdb := h.1
    refine .rot (by rw [← hdb]; exact hl) (ih ⟨h1.root, h1.txs⟩ ⟨h2.root, h2.txs⟩ ?_)
    rw [← hdb]
    exact ⟨rfl, h.2⟩
  | @faults s fs es as db o ih =>
    intro s' h1 h2 h
    have hdb := h.1
    refine .faults (ih ⟨h1.root, h1.txs⟩ ⟨h2.root, h2.txs⟩ ?_)
    rw [← hdb]
    exact ⟨rfl, h.2⟩

theorem SysAlike.symm {H : HashFn} {s s' : Sys} (h : SysAlike H s s') : SysAlike H s' s := by
  refine ⟨h.1.symm, fun i => ?_⟩
  have := h.2 i
  cases e : s.txs i <;> cases e' : s'.txs i <;> rw [e, e'] at this <;> first | trivial | exact this.elim | skip
  unfold OptRel TxAlike at this ⊢
  dsimp only at this ⊢
  rename_i t t'
  cases e2 : t.root <;> cases e3 : t'.root <;> rw [e2, e3] at this <;> first | trivial | exact this.elim | exact this.symm

/-- C72. In any program, whatever happened to its files: after a call that only looks and has
returned, the database and its files are what they were, and nothing that can happen afterwards
(calls, damage, failing system calls) shows any difference. -/
theorem C72_quiet {s s' : Sys} {op : Op} {r : Ret} (hw : Worn E s) (hq : op.Quiet) (e : step E s op = .ok (s', r)) :
    s'.db = s.db ∧ ∀ es as db, Observes E s es as db ↔ Observes E s' es as db := by
  have h := quiet_alike hq hw.held e
  exact ⟨h.1.symm, fun es as db => ⟨fun o => observes_alike o hw.held (step_held hw.held e) h,
    fun o => observes_alike o (step_held hw.held e) hw.held h.symm⟩⟩

/-- C72, for whole histories: leaving out any of the calls that only look changes none of the
other answers, and leaves the same database and files. -/
theorem C72_trimmed {s : Sys} {es es' : List Event} {as as' : List Answer} {db : Db} (hw : Worn E s) (ht : Trimmed es as es' as')
    (o : Observes E s es as db) : Observes E s es' as' db := by
  induction ht generalizing s with
  | done => exact o
  | drop hq ht ih =>
    cases o with
    | call e o =>
      have := ih (.call hw e) o
      exact ((C72_quiet hw hq e).2 _ _ _).2 this
  | call ht ih =>
    cases o with
    | call e o => exact .call e (ih (.call hw e) o)
    | aborts e => cases ht; exact .aborts e
    | undefined e => cases ht; exact .undefined e
    | refused e => cases ht; exact .refused e
  | rot ht ih =>
    cases o with
    | rot hl o => exact .rot hl (ih (.rot hw ⟨_, hl, rfl⟩) o)
  | faults ht ih =>
    cases o with
    | faults o => exact .faults (ih (.faults _ hw) o)

/-- On damaged files: a history in which a look is followed by a call that kills the process. -/
example : ∃ s es as es' as' db, Worn toyEnv s ∧ Observes toyEnv s es as db ∧ Trimmed es as es' as' ∧ as = [.ret (.bytes []), .aborts] ∧ as' = [.aborts] := by
  obtain ⟨s, n, hw, _, e1, e2⟩ := C69_remove_aborts
  exact ⟨s, _, _, _, _, _, hw, .call e1 (.aborts e2), .drop (.get 0 rotK) (.call .done), rfl, rfl⟩

/-- A look can change the memory of the program: the hash of a new branch is recorded. -/
theorem C72_records : ∃ s s' r, Worn toyEnv s ∧ step toyEnv s (.txRoot 0) = .ok (s', r) ∧ s'.txs 0 ≠ s.txs 0 := by
  have h0 := (sys2_logged rotK [] (by simp)).reachable
  have hdb := sys2_db rotK []
  have htx := sys2_tx rotK []
  generalize sys2 rotK [] = s at h0 hdb htx
  have e1 := step_insert htx (hdb ▸ rot0_ok)
  have h1 : Worn toyEnv (s.setTx 0 (some rotTx)) := .call h0.worn e1
  have hs2 : (s.setTx 0 (some rotTx)).txs 0 = some rotTx := by simp [Sys.setTx]
  have c : ∃ t h, txRoot toyEnv rotTx = .ok (t, h) ∧ t ≠ rotTx := by
    have : (match txRoot toyEnv rotTx with | .ok (t, _) => decide (t ≠ rotTx) | _ => false) = true := by decide +kernel
    split at this
    · next t h e => exact ⟨t, h, e, by simpa using this⟩
    · cases this
  obtain ⟨t, h, e, hne⟩ := c
  generalize s.setTx 0 (some rotTx) = s2 at h1 hs2
  generalize rotTx = x at hs2 e hne
  refine ⟨s2, s2.setTx 0 (some t), .hash h, h1, by simp only [step, step_tx hs2, Res.bind_ok, e]; rfl, ?_⟩
  rw [hs2]
  simpa [Sys.setTx] using hne

end Urkel
