import Verif.Model.Win
import Verif.Props.Io
import Verif.Spec.Crash
/-
C81: reading and writing files on Windows.
-/
namespace Urkel

/-- The answer of POSIX that the loop of `urkel_fs_pread` treats alike. -/
def WinAns.sys : WinAns → SysAns
  | .fail => .fail
  | .count n => .count n

theorem winPreadLoop_eq (f buf : Bytes) (off pos ptr : Nat) (rs : List WinAns) :
    (winPreadLoop f buf off pos ptr rs).map (fun r => (r >>= fun x => pure (x.1, x.2.1) : Res (Bool × Bytes))) = fsPread f buf off pos (rs.map WinAns.sys) := by
  induction rs generalizing buf off pos ptr with
  | nil => simp only [winPreadLoop, List.map_nil, fsPread]; split <;> rfl
  | cons r rs ih =>
    rw [List.map_cons]
    unfold winPreadLoop fsPread
    split
    · cases r with
      | fail => rfl
      | count n =>
        simp only [WinAns.sys]
        by_cases h0 : sysRead f pos (buf.length - off) n = 0
        · rw [if_pos h0, if_pos h0]; rfl
        · rw [if_neg h0, if_neg h0]
          by_cases h1 : sysRead f pos (buf.length - off) n > buf.length - off
          · rw [if_pos h1, if_pos h1]; rfl
          · rw [if_neg h1, if_neg h1]
            cases bufCopy buf off ((f.drop pos).take (sysRead f pos (buf.length - off) n)) with
            | ok b => exact ih ..
            | err _ => rfl
            | abort => rfl
            | ub => rfl
    · rfl

theorem mem_sys_fail {rs : List WinAns} : SysAns.fail ∈ rs.map WinAns.sys ↔ WinAns.fail ∈ rs := by
  simp only [List.mem_map]
  constructor
  · rintro ⟨a, ha, e⟩; cases a with
    | fail => exact ha
    | count n => cases e
  · intro h; exact ⟨_, h, rfl⟩

/-- C81: a positioned read. If the call returns, it succeeded with exactly the bytes of the file at that position, or it failed because
of an error or because the file ends before; the file pointer is where it was. -/
theorem C81_pread (f buf : Bytes) (pos ptr : Nat) (rs : List WinAns) (r : Res (Bool × Bytes × Nat)) (h : winPread f buf pos ptr rs = some r) :
    (r = .ok (true, (f.drop pos).take buf.length, ptr) ∧ (buf = [] ∨ pos + buf.length ≤ f.length)) ∨
    (∃ k < buf.length, r = .ok (false, (f.drop pos).take k ++ buf.drop k, ptr) ∧ (WinAns.fail ∈ rs ∨ f.length < pos + buf.length)) := by
  unfold winPread at h
  have hl := winPreadLoop_eq f buf 0 pos ptr rs
  cases e : winPreadLoop f buf 0 pos ptr rs with
  | none => rw [e] at h; cases h
  | some x =>
    rw [e] at h hl
    rw [Option.map_some] at hl
    rcases C48_pread f buf pos (rs.map WinAns.sys) _ hl.symm with ⟨h1, h2⟩ | ⟨k, hk, h1, h2⟩
    · left
      cases x with
      | ok y =>
        obtain ⟨ok, b, q⟩ := y
        rw [Res.bind_ok] at h1
        simp only [Res.pure_eq, Res.ok.injEq, Prod.mk.injEq] at h1
        obtain ⟨rfl, rfl⟩ := h1
        cases h
        exact ⟨rfl, h2⟩
      | err _ => cases h1
      | abort => cases h1
      | ub => cases h1
    · right
      rw [mem_sys_fail] at h2
      cases x with
      | ok y =>
        obtain ⟨ok, b, q⟩ := y
        rw [Res.bind_ok] at h1
        simp only [Res.pure_eq, Res.ok.injEq, Prod.mk.injEq] at h1
        obtain ⟨rfl, rfl⟩ := h1
        cases h
        exact ⟨k, hk, rfl, h2⟩
      | err _ => cases h1
      | abort => cases h1
      | ub => cases h1

/-- C81: a positioned read always returns: after at most one system call more than there are bytes. -/
theorem C81_pread_ends (f buf : Bytes) (pos ptr : Nat) (rs : List WinAns) (h : buf.length < rs.length) : (winPread f buf pos ptr rs).isSome := by
  have h1 := C48_pread_ends f buf 0 pos (rs.map WinAns.sys) (by
    have : ((rs.map WinAns.sys).filter fun s => s ≠ .intr ∧ s ≠ .again) = rs.map WinAns.sys := by
      rw [List.filter_eq_self]
      intro a ha
      obtain ⟨b, _, rfl⟩ := List.mem_map.1 ha
      cases b <;> simp [WinAns.sys]
    rw [this, List.length_map]; omega)
  rw [← winPreadLoop_eq f buf 0 pos ptr rs] at h1
  unfold winPread
  cases e : winPreadLoop f buf 0 pos ptr rs with
  | none => rw [e] at h1; cases h1
  | some x => cases x <;> rfl

theorem winRead_inv (f buf : Bytes) (pos : Nat) (rs : List WinAns) (off : Nat) (h1 : off ≤ buf.length) (h2 : pos + off ≤ f.length ∨ off = 0)
    (r : Res (Bool × Bytes × Nat)) (h : winRead f (Filled f buf pos off) off (pos + off) rs = some r) :
    ∃ k, r = .ok (decide (k = buf.length), Filled f buf pos k, pos + k) ∧ off ≤ k ∧ k ≤ buf.length ∧ (pos + k ≤ f.length ∨ k = 0) ∧
      (k = buf.length ∨ WinAns.fail ∈ rs) := by
  induction rs generalizing off with
  | nil =>
    rw [winRead, length_filled f buf pos off h1 h2] at h
    split at h
    · simp at h
    · rename_i hz
      cases h
      exact ⟨off, by congr 2; simp; omega, Nat.le_refl _, h1, h2, .inl (by omega)⟩
  | cons s rs ih =>
    unfold winRead at h
    rw [length_filled f buf pos off h1 h2] at h
    split at h
    · rename_i hz
      cases s with
      | fail =>
        cases h
        exact ⟨off, by congr 2; simp; omega, Nat.le_refl _, h1, h2, .inr (by simp)⟩
      | count n =>
        obtain ⟨s1, s2⟩ := sysRead_le f (pos + off) (buf.length - off) n
        simp only at h
        rw [if_neg (by omega)] at h
        by_cases h0 : sysRead f (pos + off) (buf.length - off) n = 0
        · rw [h0, List.take_zero] at h
          have hb : bufCopy (Filled f buf pos off) off [] = .ok (Filled f buf pos off) := by
            unfold bufCopy
            rw [if_pos (by rw [length_filled f buf pos off h1 h2]; simpa using h1)]
            simp
          rw [hb] at h
          obtain ⟨k, a, b, c, d, e⟩ := ih off h1 h2 h
          exact ⟨k, a, b, c, d, by rcases e with e | e <;> simp [e]⟩
        · rw [bufCopy_filled f buf pos off _ (by omega) (by omega)] at h
          obtain ⟨k, a, b, c, d, e⟩ := ih (off + sysRead f (pos + off) (buf.length - off) n) (by omega) (.inl (by omega)) (by rw [← Nat.add_assoc]; exact h)
          exact ⟨k, a, by omega, c, d, by rcases e with e | e <;> simp [e]⟩
    · rename_i hz
      cases h
      exact ⟨off, by congr 2; simp; omega, Nat.le_refl _, h1, h2, .inl (by omega)⟩

/-- C81: a sequential read. If the call returns, it succeeded with exactly the bytes asked for, or the system reported an error. -/
theorem C81_read (f buf : Bytes) (pos : Nat) (rs : List WinAns) (r : Res (Bool × Bytes × Nat)) (h : winRead f buf 0 pos rs = some r) :
    (r = .ok (true, (f.drop pos).take buf.length, pos + buf.length) ∧ (buf = [] ∨ pos + buf.length ≤ f.length)) ∨
    (∃ k < buf.length, r = .ok (false, (f.drop pos).take k ++ buf.drop k, pos + k) ∧ WinAns.fail ∈ rs) := by
  obtain ⟨k, a, -, c, d, e⟩ := winRead_inv f buf pos rs 0 (Nat.zero_le _) (.inr rfl) r (by rw [filled_zero]; exact h)
  by_cases hk : k = buf.length
  · left
    rw [a, hk, filled_all]
    refine ⟨by simp, ?_⟩
    rcases d with d | d
    · right; omega
    · left; apply List.eq_nil_of_length_eq_zero; omega
  · right
    refine ⟨k, by omega, ?_, ?_⟩
    · rw [a, decide_eq_false hk]; rfl
    · rcases e with e | e
      · exact absurd e hk
      · exact e

/-- C81: a sequential read of bytes that are in the file returns. -/
theorem C81_read_ends_partial (f buf : Bytes) (pos : Nat) (rs : List WinAns) (hf : pos + buf.length ≤ f.length) (h : buf.length ≤ rs.length) :
    (winRead f buf 0 pos rs).isSome := by
  have key : ∀ (rs : List WinAns) (buf : Bytes) (off pos : Nat), pos + (buf.length - off) ≤ f.length → off ≤ buf.length → buf.length - off ≤ rs.length →
      (winRead f buf off pos rs).isSome := by
    intro rs
    induction rs with
    | nil => intro buf off pos _ _ h; rw [winRead, if_neg (by simpa using h)]; rfl
    | cons r rs ih =>
      intro buf off pos hp ho h
      unfold winRead
      split
      · rename_i hz
        cases r with
        | fail => rfl
        | count n =>
          obtain ⟨s1, s2⟩ := sysRead_le f pos (buf.length - off) n
          have s3 : 0 < sysRead f pos (buf.length - off) n := by unfold sysRead; omega
          simp only
          rw [if_neg (by omega)]
          have ln : ((f.drop pos).take (sysRead f pos (buf.length - off) n)).length = sysRead f pos (buf.length - off) n := by
            rw [List.length_take, List.length_drop]; omega
          have hb : bufCopy buf off ((f.drop pos).take (sysRead f pos (buf.length - off) n)) =
              .ok (buf.take off ++ (f.drop pos).take (sysRead f pos (buf.length - off) n) ++ buf.drop (off + sysRead f pos (buf.length - off) n)) := by
            unfold bufCopy; rw [ln, if_pos (by omega)]
          rw [hb]
          have hl : (buf.take off ++ (f.drop pos).take (sysRead f pos (buf.length - off) n) ++ buf.drop (off + sysRead f pos (buf.length - off) n)).length = buf.length := by
            rw [List.length_append, List.length_append, ln, List.length_take, List.length_drop]; omega
          rw [List.length_cons] at h
          refine ih _ _ _ ?_ ?_ ?_ <;> rw [hl] <;> omega
      · rfl
  exact key rs buf 0 pos (by omega) (Nat.zero_le _) (by omega)

/-- C81 is false: a sequential read of more bytes than the file has does not return, however often the system answers: `ReadFile`
succeeds with 0 bytes at the end of the file, and the loop only ends at an error. -/
theorem C81_read_hangs (f buf : Bytes) (pos : Nat) (rs : List WinAns) (hb : buf ≠ []) (hf : f.length < pos + buf.length) (hno : WinAns.fail ∉ rs) :
    winRead f buf 0 pos rs = none := by
  cases e : winRead f buf 0 pos rs with
  | none => rfl
  | some r =>
    rcases C81_read f buf pos rs r e with ⟨-, h⟩ | ⟨k, -, -, h⟩
    · rcases h with h | h
      · exact absurd h hb
      · omega
    · exact absurd h hno

/-- C81 is false, as seen by the caller: if the process that makes a database stops while it writes the key file, a later `urkel_open`
does not fail (as on POSIX, C27) but never returns. -/
theorem C81_open_hangs (rand : B32) (k : Nat) (hk : k < 32) :
    CreateImage rand ⟨some (rand.bytes.take k), []⟩ ∧ ∀ rs, WinAns.fail ∉ rs → winReadKey (rand.bytes.take k) rs = none := by
  refine ⟨.key k (Nat.le_of_lt hk), ?_⟩
  intro rs hno
  unfold winReadKey
  rw [C81_read_hangs _ _ 0 rs (by simp) ?_ hno]
  rw [List.length_take, List.length_replicate]; omega

/-- C81: with a whole key file, `urkel_open` gets the key that is in it, whatever pieces the system reads it in; the read fails only if the system
reports an error. -/
theorem C81_key (d : Dir) (rand key : B32) (kf : Bytes) (hm : d.keyFile = some kf) (hk : d.key rand = some key) (rs : List WinAns) :
    (∀ r, winReadKey kf rs = some r → r = some key.bytes ∨ (r = none ∧ WinAns.fail ∈ rs)) ∧ (32 ≤ rs.length → (winReadKey kf rs).isSome) := by
  have hlen : 32 ≤ kf.length ∧ key.bytes = kf.take 32 := by
    unfold Dir.key at hk
    rw [hm] at hk
    dsimp only at hk
    split at hk
    · rename_i h; cases hk; exact ⟨h, rfl⟩
    · cases hk
  constructor
  · intro r hr
    unfold winReadKey at hr
    cases e : winRead kf (List.replicate 32 0) 0 0 rs with
    | none => rw [e] at hr; cases hr
    | some x =>
      rw [e] at hr
      rcases C81_read _ _ _ _ _ e with ⟨rfl, -⟩ | ⟨k, -, rfl, hf⟩
      · cases hr
        left
        rw [List.length_replicate, List.drop_zero, hlen.2]
      · cases hr
        exact .inr ⟨rfl, hf⟩
  · intro h
    have h1 := C81_read_ends_partial kf (List.replicate 32 0) 0 rs (by rw [List.length_replicate]; omega) (by rw [List.length_replicate]; omega)
    unfold winReadKey
    cases e : winRead kf (List.replicate 32 0) 0 0 rs with
    | none => rw [e] at h1; cases h1
    | some x =>
      rcases C81_read _ _ _ _ _ e with ⟨rfl, -⟩ | ⟨k, -, rfl, -⟩ <;> rfl

theorem overwrite_end (f d : Bytes) : overwrite f f.length d = f ++ d := by
  unfold overwrite
  split
  · rename_i h; rw [List.eq_nil_of_length_eq_zero h, List.append_nil]
  · rw [Nat.sub_self, List.replicate_zero, List.append_nil, List.take_length, List.drop_eq_nil_of_le (by omega), List.append_nil]

/-- C81: writing at the end of a file, whether the handle appends (data files) or the file pointer is at the end (a new key file). If the call returns, a
prefix of the bytes has arrived, all of them exactly if it reports success; it fails only if the system reports an error. -/
theorem C81_write (append : Bool) (f src : Bytes) (fpos : Nat) (hp : append = true ∨ fpos = f.length) (rs : List WinAns) (r : Res (Bool × Bytes))
    (h : winWrite append f fpos src rs = some r) :
    ∃ k ≤ src.length, r = .ok (decide (k = src.length), f ++ src.take k) ∧ (k = src.length ∨ WinAns.fail ∈ rs) := by
  induction rs generalizing f src fpos with
  | nil =>
    rw [winWrite] at h
    split at h
    · simp at h
    · rename_i hz
      cases h
      exact ⟨0, Nat.zero_le _, by simp [eq_comm], .inl (by omega)⟩
  | cons s rs ih =>
    unfold winWrite at h
    split at h
    · rename_i hz
      cases s with
      | fail =>
        cases h
        refine ⟨0, Nat.zero_le _, ?_, .inr (by simp)⟩
        rw [List.take_zero, List.append_nil]
        congr 2
        simp only [decide_eq_decide]; omega
      | count n =>
        simp only at h
        rw [if_neg (by omega)] at h
        have hput : winPut append f fpos (src.take (min n src.length)) = f ++ src.take (min n src.length) := by
          unfold winPut
          split
          · rfl
          · rename_i ha
            rcases hp with hp | hp
            · exact absurd hp ha
            · rw [hp, overwrite_end]
        rw [hput] at h
        obtain ⟨k, hk, e, h3⟩ := ih (f ++ src.take (min n src.length)) (src.drop (min n src.length)) (fpos + min n src.length) (by
          rcases hp with hp | hp
          · exact .inl hp
          · right; rw [List.length_append, List.length_take, hp]; omega) h
        rw [List.length_drop] at hk e h3
        refine ⟨min n src.length + k, by omega, ?_, ?_⟩
        · rw [e, List.take_add, List.append_assoc]
          congr 2
          simp only [decide_eq_decide]; omega
        · rcases h3 with h3 | h3
          · left; omega
          · right; exact List.mem_cons_of_mem _ h3
    · rename_i hz
      cases h
      exact ⟨0, Nat.zero_le _, by simp [eq_comm], .inl (by omega)⟩

/-- C81: a new key file. If the call returns, the file has a prefix of the key, all of it exactly if success is reported. -/
theorem C81_new_key (rand : B32) (rs : List WinAns) (r : Res (Bool × Bytes)) (h : winWriteKey rand rs = some r) :
    ∃ k ≤ 32, r = .ok (decide (k = 32), rand.bytes.take k) ∧ (k = 32 ∨ WinAns.fail ∈ rs) := by
  have hl : rand.bytes.length = 32 := rand.2
  obtain ⟨k, hk, e, h3⟩ := C81_write false [] rand.bytes 0 (.inr rfl) rs r h
  rw [hl] at hk e h3
  exact ⟨k, hk, by rw [e, List.nil_append], h3⟩

/-! ### Several threads read through one handle -/

/-- The call has got `off` bytes of the file and the rest of its buffer is as it was; what it returns is right. -/
def RdOk (f : Bytes) (pos : Nat) (buf : Bytes) (rs : List WinAns) (c : RdCall) : Prop :=
  c.pos = pos ∧ c.off ≤ buf.length ∧ (pos + c.off ≤ f.length ∨ c.off = 0) ∧ c.buf = Filled f buf pos c.off ∧
  (∀ ok, (c.phase = .done ok ∨ ∃ old, c.phase = .restore old ok) →
    if ok then c.off = buf.length else c.off < buf.length ∧ (WinAns.fail ∈ rs ∨ f.length ≤ pos + c.off))

theorem RdOk.mono {f : Bytes} {pos : Nat} {buf : Bytes} {rs rs' : List WinAns} {c : RdCall} (h : RdOk f pos buf rs c) (hs : ∀ a ∈ rs, a ∈ rs') :
    RdOk f pos buf rs' c := by
  obtain ⟨h1, h2, h3, h4, h5⟩ := h
  refine ⟨h1, h2, h3, h4, fun ok hp => ?_⟩
  have := h5 ok hp
  cases ok with
  | true => exact this
  | false => exact ⟨this.1, this.2.imp (hs _) id⟩

theorem rdStep_ok {f : Bytes} {pos : Nat} {buf : Bytes} {rs : List WinAns} {c : RdCall} (h : RdOk f pos buf rs c) (ptr : Nat) (a : WinAns) :
    ∃ ptr' c', rdStep f ptr c a = .ok (ptr', c') ∧ RdOk f pos buf (a :: rs) c' := by
  have hm := h.mono (rs' := a :: rs) (fun _ h => List.mem_cons_of_mem _ h)
  obtain ⟨h1, h2, h3, h4, h5⟩ := hm
  have hlen : c.buf.length = buf.length := by rw [h4]; exact length_filled f buf pos _ h2 h3
  unfold rdStep
  cases hph : c.phase with
  | start =>
    refine ⟨_, _, rfl, h1, h2, h3, h4, ?_⟩
    rintro ok (hp | ⟨_, hp⟩) <;> cases hp
  | loop old =>
    dsimp only
    rw [hlen]
    by_cases hz : buf.length - c.off > 0
    · rw [if_pos hz]
      cases a with
      | fail =>
        refine ⟨_, _, rfl, h1, h2, h3, h4, ?_⟩
        rintro ok (hp | ⟨_, hp⟩)
        · cases hp
        · cases hp
          show c.off < buf.length ∧ _
          exact ⟨by omega, .inl (List.mem_cons_self ..)⟩
      | count n =>
        dsimp only
        obtain ⟨s1, s2⟩ := sysRead_le f (c.pos + c.off) (buf.length - c.off) n
        by_cases h0 : sysRead f (c.pos + c.off) (buf.length - c.off) n = 0
        · rw [if_pos h0]
          refine ⟨_, _, rfl, h1, h2, h3, h4, ?_⟩
          rintro ok (hp | ⟨_, hp⟩)
          · cases hp
          · cases hp
            show c.off < buf.length ∧ _
            refine ⟨by omega, .inr ?_⟩
            unfold sysRead at h0
            show f.length ≤ pos + c.off
            omega
        · rw [if_neg h0, if_neg (by omega)]
          rw [h1, h4]
          rw [h1] at s1 s2 h0
          rw [bufCopy_filled f buf pos c.off _ (by omega) (by omega)]
          refine ⟨_, _, rfl, ?_⟩
          refine ⟨rfl, ?_, ?_, ?_, ?_⟩
          · show c.off + _ ≤ _; omega
          · left; show pos + (c.off + _) ≤ _; omega
          · rfl
          · rintro ok (hp | ⟨_, hp⟩) <;> cases hp
    · rw [if_neg hz]
      refine ⟨_, _, rfl, h1, h2, h3, h4, ?_⟩
      rintro ok (hp | ⟨_, hp⟩)
      · cases hp
      · cases hp
        show c.off = buf.length
        omega
  | restore old ok =>
    refine ⟨_, _, rfl, h1, h2, h3, h4, ?_⟩
    rintro ok' (hp | ⟨_, hp⟩)
    · cases hp
      exact h5 ok (.inr ⟨old, hph⟩)
    · cases hp
  | done ok =>
    refine ⟨_, _, rfl, h1, h2, h3, h4, ?_⟩
    intro ok' hp
    exact h5 ok' hp

/-- C81: any number of positioned reads of one handle at the same time, their system calls interleaved in any way. They all move and restore the one file pointer of the
handle, which may end anywhere, but each call that returns success has exactly the bytes of the file at its position, and a call fails only if the
system reports an error or the file ends before. -/
theorem C81_shared_handle (f : Bytes) (ptr : Nat) (reqs : List (Nat × Bytes)) (sched : List (Nat × WinAns)) :
    ∃ ptr' cs, rdRun f (ptr, reqs.map fun q => ⟨q.1, q.2, 0, .start⟩) sched = .ok (ptr', cs) ∧ cs.length = reqs.length ∧
      ∀ (t pos : Nat) (buf : Bytes) (c : RdCall), reqs[t]? = some (pos, buf) → cs[t]? = some c →
        (c.phase = .done true → c.buf = (f.drop pos).take buf.length ∧ (buf = [] ∨ pos + buf.length ≤ f.length)) ∧
        (c.phase = .done false → WinAns.fail ∈ sched.map Prod.snd ∨ f.length < pos + buf.length) := by
  have key : ∀ (sched : List (Nat × WinAns)) (ptr : Nat) (cs : List RdCall) (rs : List WinAns),
      (∀ (t pos : Nat) (buf : Bytes) (c : RdCall), reqs[t]? = some (pos, buf) → cs[t]? = some c → RdOk f pos buf rs c) → cs.length = reqs.length →
      ∃ ptr' cs', rdRun f (ptr, cs) sched = .ok (ptr', cs') ∧ cs'.length = reqs.length ∧
        ∀ (t pos : Nat) (buf : Bytes) (c : RdCall), reqs[t]? = some (pos, buf) → cs'[t]? = some c → RdOk f pos buf ((sched.map Prod.snd).reverse ++ rs) c := by
    intro sched
    induction sched with
    | nil => intro ptr cs rs h hl; exact ⟨ptr, cs, rfl, hl, by simpa using h⟩
    | cons x sched ih =>
      intro ptr cs rs h hl
      obtain ⟨t, a⟩ := x
      have hsub : ∀ b ∈ (sched.map Prod.snd).reverse ++ (a :: rs), b ∈ (((t, a) :: sched).map Prod.snd).reverse ++ rs := by
        intro b hb
        simp only [List.map_cons, List.reverse_cons, List.append_assoc, List.singleton_append]
        exact hb
      simp only [rdRun]
      cases ec : cs[t]? with
      | none =>
        obtain ⟨p', cs', e, hl', h'⟩ := ih ptr cs (a :: rs) (fun t pos buf c h1 h2 => (h t pos buf c h1 h2).mono fun _ h => List.mem_cons_of_mem _ h) hl
        exact ⟨p', cs', e, hl', fun t pos buf c h1 h2 => (h' t pos buf c h1 h2).mono hsub⟩
      | some c =>
        have ht : t < reqs.length := by rw [← hl]; exact (List.getElem?_eq_some_iff.1 ec).1
        obtain ⟨⟨pos, buf⟩, er⟩ : ∃ q, reqs[t]? = some q := ⟨_, List.getElem?_eq_getElem ht⟩
        obtain ⟨p1, c1, e1, ok1⟩ := rdStep_ok (h t pos buf c er ec) ptr a
        dsimp only
        rw [e1, Res.bind_ok]
        obtain ⟨p', cs', e, hl', h'⟩ := ih p1 (cs.set t c1) (a :: rs) (by
          intro u pos' buf' c' h1 h2
          by_cases hu : u = t
          · subst hu
            rw [er] at h1; cases h1
            rw [List.getElem?_set_self (by omega)] at h2; cases h2
            exact ok1
          · rw [List.getElem?_set_ne (Ne.symm hu)] at h2
            exact (h u pos' buf' c' h1 h2).mono fun _ h => List.mem_cons_of_mem _ h) (by rw [List.length_set]; exact hl)
        exact ⟨p', cs', e, hl', fun t pos buf c h1 h2 => (h' t pos buf c h1 h2).mono hsub⟩
  obtain ⟨ptr', cs, e, hl, h⟩ := key sched ptr (reqs.map fun q => ⟨q.1, q.2, 0, .start⟩) [] (by
    intro t pos buf c h1 h2
    rw [List.getElem?_map, h1] at h2
    cases h2
    refine ⟨rfl, Nat.zero_le _, .inr rfl, (filled_zero ..).symm, ?_⟩
    rintro ok (hp | ⟨_, hp⟩) <;> cases hp) (by rw [List.length_map])
  refine ⟨ptr', cs, e, hl, ?_⟩
  intro t pos buf c h1 h2
  obtain ⟨-, b2, b3, b4, b5⟩ := h t pos buf c h1 h2
  constructor
  · intro hp
    have hoff : c.off = buf.length := b5 true (.inl hp)
    rw [b4, hoff, filled_all]
    refine ⟨rfl, ?_⟩
    rw [hoff] at b3
    rcases b3 with b3 | b3
    · exact .inr b3
    · exact .inl (List.eq_nil_of_length_eq_zero b3)
  · intro hp
    obtain ⟨c1, c2⟩ : c.off < buf.length ∧ _ := b5 false (.inl hp)
    rcases c2 with c2 | c2
    · left; simpa using c2
    · right; omega

/-- Two reads whose system calls interleave: both get their bytes, and the file pointer ends elsewhere than it began. -/
theorem C81_shared_example : ∃ cs, rdRun [10, 11, 12, 13, 14] (0, [⟨0, [0, 0], 0, .start⟩, ⟨3, [0], 0, .start⟩])
    [(0, .count 0), (0, .count 1), (1, .count 0), (1, .count 5), (0, .count 1), (0, .count 0), (0, .count 0), (1, .count 0), (1, .count 0)] = .ok (1, cs) ∧
    cs = [⟨0, [10, 11], 2, .done true⟩, ⟨3, [13], 1, .done true⟩] := ⟨_, by decide +kernel, rfl⟩

/-! ### File handles and mappings -/

/-- A handle in order: its size is in the file, and its view, if it has one, is there and covers the size and not more than the file. -/
structure WinH.Ok (h : WinH) (f : Bytes) : Prop where
  size : h.size ≤ f.length
  base : ∀ b, h.base = some b → h.live = true ∧ h.size ≤ b ∧ b ≤ f.length

/-- C81: opening fails only if mapping a non-empty file fails. -/
theorem C81_file_open (f : Bytes) (mmap mapOk : Bool) :
    (winFileOpen f mmap mapOk = none ↔ mmap = true ∧ mapOk = false ∧ f ≠ []) ∧
    ∀ h, winFileOpen f mmap mapOk = some h → h.Ok f ∧ h.size = f.length ∧ h.mapped = mmap := by
  refine ⟨?_, fun h e => ?_⟩
  · cases f <;> cases mmap <;> cases mapOk <;> simp [winFileOpen]
  · unfold winFileOpen at e
    split at e
    · split at e
      · split at e
        · cases e; rename_i hm _ _; exact ⟨⟨Nat.le_refl _, fun b hb => by cases hb; exact ⟨rfl, Nat.le_refl _, Nat.le_refl _⟩⟩, rfl, hm.symm⟩
        · cases e
      · cases e; rename_i hm _; exact ⟨⟨Nat.le_refl _, (fun b hb => by cases hb)⟩, rfl, hm.symm⟩
    · cases e; rename_i hm; exact ⟨⟨Nat.le_refl _, (fun b hb => by cases hb)⟩, rfl, by simpa using hm⟩

/-- C81: reading through a handle in order, mapped or not: never outside the view or the file; success gives exactly the bytes at the position; a failure means
the range is not in the file or the system reported an error. -/
theorem C81_file_read (f buf : Bytes) (h : WinH) (pos : Nat) (rs : List WinAns) (hk : h.Ok f) (hs : h.size < 2 ^ 64)
    (r : Res (Bool × Bytes)) (e : winFilePread f h buf pos rs = some r) :
    ∃ ok out, r = .ok (ok, out) ∧ out.length = buf.length ∧ (ok = true → out = (f.drop pos).take buf.length) ∧
      (ok = false → h.size < pos + buf.length ∨ WinAns.fail ∈ rs) := by
  unfold winFilePread at e
  dsimp only at e
  split at e
  · rename_i h0
    cases e
    refine ⟨true, buf, rfl, rfl, fun _ => ?_, fun h => by cases h⟩
    have : buf = [] := List.eq_nil_of_length_eq_zero h0
    subst this; simp
  · split at e
    · cases e
      exact ⟨false, buf, rfl, rfl, (fun h => by cases h), fun _ => .inl (by omega)⟩
    · split at e
      · cases e
        exact ⟨false, buf, rfl, rfl, (fun h => by cases h), fun _ => .inl (by omega)⟩
      · rename_i hle
        have hsz := hk.size
        cases hb : h.base with
        | some b =>
          rw [hb] at e
          dsimp only at e
          obtain ⟨hl, hb1, hb2⟩ := hk.base b hb
          rw [if_pos ⟨hl, by omega, by omega⟩] at e
          cases e
          refine ⟨true, _, rfl, ?_, fun _ => rfl, fun h => by cases h⟩
          rw [List.length_take, List.length_drop]; omega
        | none =>
          rw [hb] at e
          dsimp only at e
          cases ep : winPread f buf pos 0 rs with
          | none => rw [ep] at e; cases e
          | some x =>
            rw [ep] at e
            rcases C81_pread f buf pos 0 rs x ep with ⟨rfl, h1⟩ | ⟨k, hk', rfl, h1⟩
            · cases e
              refine ⟨true, _, rfl, ?_, fun _ => rfl, fun h => by cases h⟩
              rw [List.length_take, List.length_drop]; omega
            · cases e
              refine ⟨false, _, rfl, ?_, (fun h => by cases h), fun _ => ?_⟩
              · rw [List.length_append, List.length_take, List.length_drop, List.length_drop]; omega
              · rcases h1 with h1 | h1
                · exact .inr h1
                · exact .inl (by omega)

/-- C81: appending through a handle in order, as long as closing a mapping handle does not fail. The file grows by a prefix of the bytes, by all of them if success
is reported; the handle stays in order and its size grows exactly by what is completely written. -/
theorem C81_file_write_partial (f src : Bytes) (h : WinH) (unmapOk mapOk : Bool) (rs : List WinAns) (hk : h.Ok f) (hend : h.size = f.length)
    (r : Res (Bool × Bytes × WinH)) (e : winFileWrite f h src unmapOk true mapOk rs = some r) :
    ∃ k ≤ src.length, ∃ ok h', r = .ok (ok, f ++ src.take k, h') ∧ h'.Ok (f ++ src.take k) ∧ (ok = true → k = src.length) ∧
      (h'.size = if k = src.length then h.size + k else h.size) ∧ h'.mapped = h.mapped ∧
      (ok = false → (h.base.isSome ∧ unmapOk = false) ∨ (h.mapped = true ∧ mapOk = false) ∨ WinAns.fail ∈ rs) := by
  unfold winFileWrite at e
  split at e
  · rename_i h0
    cases e
    have : src = [] := List.eq_nil_of_length_eq_zero h0
    subst this
    exact ⟨0, Nat.zero_le _, true, h, by simp, by simpa using hk, fun _ => rfl, by simp, rfl, fun h => by cases h⟩
  · rename_i h0
    split at e
    · rename_i h1
      cases e
      refine ⟨0, Nat.zero_le _, false, h, by simp, by simpa using hk, (fun h => by cases h), ?_, rfl, fun _ => .inl ?_⟩
      · rw [if_neg (by omega)]
      · rw [Bool.and_eq_true] at h1; exact ⟨h1.1, by simpa using h1.2⟩
    · rw [if_neg (by simp)] at e
      dsimp only at e
      cases ew : winWrite true f 0 src rs with
      | none => rw [ew] at e; cases e
      | some x =>
        rw [ew] at e
        obtain ⟨k, hk', rfl, h3⟩ := C81_write true f src 0 (.inl rfl) rs x ew
        by_cases hkk : k = src.length
        · rw [decide_eq_true hkk] at e
          dsimp only at e
          have hlen : (f ++ src.take k).length = h.size + src.length := by rw [List.length_append, List.length_take, hend]; omega
          split at e
          · rename_i hm
            split at e
            · cases e
              refine ⟨k, hk', true, _, rfl, ⟨?_, ?_⟩, fun _ => hkk, ?_, rfl, fun h => by cases h⟩
              · show h.size + src.length ≤ _; omega
              · intro b hb
                cases hb
                exact ⟨rfl, by show h.size + src.length ≤ _; omega, Nat.le_refl _⟩
              · show h.size + src.length = _; rw [if_pos hkk, hkk]
            · rename_i hmo
              cases e
              refine ⟨k, hk', false, _, rfl, ⟨?_, (fun b hb => by cases hb)⟩, (fun h => by cases h), ?_, rfl, fun _ => .inr (.inl ⟨hm, by simpa using hmo⟩)⟩
              · show h.size + src.length ≤ _; omega
              · show h.size + src.length = _; rw [if_pos hkk, hkk]
          · cases e
            refine ⟨k, hk', true, _, rfl, ⟨?_, (fun b hb => by cases hb)⟩, fun _ => hkk, ?_, rfl, fun h => by cases h⟩
            · show h.size + src.length ≤ _; omega
            · show h.size + src.length = _; rw [if_pos hkk, hkk]
        · rw [decide_eq_false hkk] at e
          dsimp only at e
          cases e
          refine ⟨k, hk', false, _, rfl, ⟨?_, (fun b hb => by cases hb)⟩, (fun h => by cases h), ?_, rfl, fun _ => .inr (.inr ?_)⟩
          · show h.size ≤ _; rw [List.length_append]; omega
          · show h.size = _; rw [if_neg hkk]
          · rcases h3 with h3 | h3
            · exact absurd h3 hkk
            · exact h3

/-- C81 is false if closing a mapping handle fails: the view is gone but the file structure still points to it, and the next read of any byte of the file
uses unmapped memory. -/
theorem C81_dangling_false (f src buf : Bytes) (h : WinH) (b : Nat) (mapOk : Bool) (rs rs' : List WinAns) (hb : h.base = some b) (hs : src ≠ [])
    (pos : Nat) (hbuf : buf ≠ []) (hp : pos + buf.length ≤ h.size) (h64 : h.size < 2 ^ 64) :
    ∃ h', winFileWrite f h src true false mapOk rs = some (.ok (false, f, h')) ∧ winFilePread f h' buf pos rs' = some .ub := by
  have h0 : src.length ≠ 0 := fun e => hs (List.eq_nil_of_length_eq_zero e)
  have h1 : buf.length ≠ 0 := fun e => hbuf (List.eq_nil_of_length_eq_zero e)
  refine ⟨{ h with live := false }, ?_, ?_⟩
  · unfold winFileWrite
    rw [if_neg h0, hb]
    rfl
  · unfold winFilePread
    dsimp only
    rw [if_neg h1, if_neg (by omega), if_neg (by show ¬ pos + buf.length > h.size; omega)]
    show (match h.base with | some b => _ | none => _) = _
    rw [hb]
    rfl

/-- The handle of a mapped file of three bytes: appending two and reading them back. -/
theorem C81_example : ∃ h h', winFileOpen [1, 2, 3] true true = some h ∧
    winFileWrite [1, 2, 3] h [8, 9] true true true [.count 0, .count 1, .count 5] = some (.ok (true, [1, 2, 3, 8, 9], h')) ∧
    winFilePread [1, 2, 3, 8, 9] h' [0, 0] 3 [] = some (.ok (true, [8, 9])) ∧
    winRead [1, 2, 3] [0, 0] 0 0 [.count 1, .count 9] = some (.ok (true, [1, 2], 2)) := 
  ⟨_, ⟨5, some 5, true, true⟩, rfl, by decide +kernel, by decide +kernel, by decide +kernel⟩

/-- `open(2)` as POSIX has it, with the flags O_CREAT, O_EXCL and O_TRUNC: contents afterwards, or failure. -/
def posixOpen (creat excl trunc : Bool) : Option Bytes → Option Bytes
  | none => if creat then some [] else none
  | some f => if creat && excl then none else some (if trunc then [] else f)

/-- C81: opening a file has the effect it has on POSIX, for all flags and files. -/
theorem C81_flags (creat excl trunc : Bool) (f : Option Bytes) : (winDisp creat excl trunc).apply f = posixOpen creat excl trunc f := by
  cases creat <;> cases excl <;> cases trunc <;> cases f <;> rfl

end Urkel
