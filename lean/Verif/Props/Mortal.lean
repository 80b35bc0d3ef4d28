import Verif.Spec.Mortal
import Verif.Props.Killed
import Verif.Props.Life
/-
C94: several processes on one directory that is made, used and destroyed, killed at any moment.
-/
namespace Urkel

/-- A process that does not have the database open counts as being outside. -/
def Phase.bare : Phase → Phase
  | .inside s => .inside s
  | _ => .out

/-- The processes that have the database open. -/
def World.bare (w : World) : World := { w with proc := fun q => (w.proc q).bare }

theorem Phase.bare_out {x : Phase} (h : ∀ y, x ≠ .inside y) : x.bare = .out := by
  cases x <;> first | rfl | exact absurd rfl (h _)

theorem World.bare_set (w : World) (p : Nat) (x : Phase) : (w.set p x).bare = w.bare.set p x.bare := by
  have : (fun q => (if q = p then x else w.proc q).bare) = fun q => if q = p then x.bare else (w.proc q).bare := by
    funext q
    split <;> rfl
  show ({ w with proc := fun q => (if q = p then x else w.proc q).bare } : World) = _
  rw [this]
  rfl

theorem World.bare_inside {w : World} {p : Nat} {s : Sys} (h : w.proc p = .inside s) : w.bare.proc p = .inside s := by
  show (w.proc p).bare = _
  rw [h]; rfl

theorem World.inside_bare {w : World} {p : Nat} {s : Sys} (h : w.bare.proc p = .inside s) : w.proc p = .inside s := by
  have h : (w.proc p).bare = _ := h
  cases hp : w.proc p with
  | inside x => rw [hp] at h; exact h
  | _ => rw [hp] at h; cases h

/-- A process outside that gets on to something else outside has not opened anything. -/
theorem World.bare_same {w : World} {p : Nat} {x : Phase} (hp : ∀ y, w.proc p ≠ .inside y) (hx : ∀ y, x ≠ .inside y) : (w.set p x).bare = w.bare := by
  rw [World.bare_set, Phase.bare_out hx]
  have : (fun q => if q = p then Phase.out else (w.proc q).bare) = fun q => (w.proc q).bare := by
    funext q
    split
    · rename_i h; rw [h, Phase.bare_out hp]
    · rfl
  show ({ w.bare with proc := fun q => if q = p then Phase.out else (w.proc q).bare } : World) = _
  rw [this]
  rfl

theorem World.bare_killed (w : World) (p : Nat) (F : List Bytes) : (w.killed p F).bare = w.bare.killed p F := World.bare_set _ _ _

/-- The state of the processes in terms of `KShared`; or there is no key file. -/
def MShared (E : Env) (log' : List (B32 × Contents)) (l : Life) (s : Sys) : Prop := KShared E log' l.w.bare s ∧ l.there = true

structure Unmade (l : Life) : Prop where
  files : l.w.dir.files = []
  key : l.w.dir.keyFile = none ∨ l.there = true ∧ ∃ b, l.w.dir.keyFile = some b ∧ b.length < 32
  free : l.w.holder = none
  outside : ∀ p x, l.w.proc p ≠ .inside x

/-- A directory in which nothing but the key file has been made is like one in which an empty database was opened and closed. -/
theorem held_keyed {E : Env} {w : World} {k : B32} (hd : w.dir = ⟨some k.bytes, []⟩) (hfree : w.holder = none) (hout : ∀ p x, w.proc p ≠ .inside x) :
    ∃ s, MShared E [] ⟨w, true⟩ s := by
  obtain ⟨st, -, h2, h3, hl⟩ := open_keyed (E := E) k B32.zero
  have hb : ∀ p, w.bare.proc p = .out := fun p => Phase.bare_out (hout p)
  refine ⟨_, ⟨hl, ?_, fun p h => ?_, fun _ => ⟨?_, [[]], ?_, ?_, fun _ => ?_, ?_⟩, ?_, ?_, ?_, ?_⟩, rfl⟩
  · show w.dir.keyFile = _
    rw [hd, h2]
  · have h : w.holder = _ := h
    rw [hfree] at h; cases h
  · show (st.files.getLastD []).length % 38 = 0
    rw [h3]; rfl
  · show FExt st.files _
    rw [h3]; exact FExt.refl _
  · show NoForge E st.key st.files _
    rw [h3]; exact noForge_self _ _ _
  · show NoMagic st.files _
    rw [h3]; exact noMagic_self _
  · show OpensCut E st.key [[]] w.dir.files
    rw [hd]
    refine .cons ⟨[[], [[]]], ?_, by simp⟩ (.nil _)
    simp [recoverTrace, findMeta, metaSize]
  · intro p x h
    have h : w.bare.proc p = _ := h
    rw [hb] at h; cases h
  · intro p k h
    have h : w.bare.proc p = _ := h
    rw [hb] at h; cases h
  · intro p k n h
    have h : w.bare.proc p = _ := h
    rw [hb] at h; cases h
  · intro p h
    have h : w.bare.proc p = _ := h
    rw [hb] at h; cases h

theorem MShared.held {E : Env} {log' : List (B32 × Contents)} {l : Life} {s : Sys} (h : MShared E log' l s) {p : Nat} {x : Sys} (hp : l.w.proc p = .inside x) :
    x = s ∧ l.w.holder = some p ∧ l.w.dir.files = s.db.store.files := by
  have hb := World.bare_inside hp
  have hh := h.1.inside p x hb
  obtain ⟨h1, h2⟩ := h.1.holds p hh
  rw [hb] at h1
  exact ⟨Phase.inside.inj h1, hh, h2⟩

/-- The process inside makes a call. -/
theorem MShared.called {E : Env} {log log' : List (B32 × Contents)} {l : Life} {s s' : Sys} (h : MShared E log l s) {p : Nat} {w' : World}
    (hw : w' = ({ l.w with dir := { l.w.dir with files := s'.db.store.files } } : World).set p (.inside s'))
    (hp : l.w.proc p = .inside s) (hl : Logged E log' s') (hk : s'.db.store.key = s.db.store.key) : MShared E log' ⟨w', true⟩ s' := by
  subst hw
  have hh := (h.held hp).2.1
  refine ⟨?_, rfl⟩
  have hb : (({ l.w with dir := { l.w.dir with files := s'.db.store.files } } : World).set p (.inside s')).bare =
      ({ l.w.bare with dir := { l.w.dir with files := s'.db.store.files } } : World).set p (.inside s') := World.bare_set _ _ _
  show KShared E log' (World.bare _) s'
  rw [hb]
  exact h.1.called rfl rfl rfl hh (fun q hq => by have hq : l.w.holder = some q := hq; rw [hh] at hq; exact (Option.some.inj hq).symm) hl hk

theorem Unmade.no_key {l : Life} (h : Unmade l) (k : B32) : l.w.dir.keyFile ≠ some k.bytes := by
  intro e
  rcases h.key with h | ⟨_, b, h, hb⟩
  · rw [h] at e; cases e
  · rw [h] at e; cases e
    have := k.len
    omega

theorem Mortal.inv {E : Env} (hE : EnvOk E) {log : List ((B32 × Contents) × Bool)} {l : Life} (h : Mortal E log l) :
    (∃ log' s, MShared E log' l s ∧ Settled log log') ∨ (log = [] ∧ Unmade l) := by
  induction h with
  | start => exact .inr ⟨rfl, rfl, .inl rfl, rfl, fun _ _ h => nomatch h⟩
  | @commit log l l' p op s' c _ ht e hc hin ih =>
    obtain ⟨x, hp, hc⟩ := hc
    rcases ih with ⟨log', s, ih, a⟩ | ⟨_, ih⟩
    · obtain ⟨rfl, hh, -⟩ := ih.held hp
      obtain ⟨w', e', rfl⟩ := lifeStep_there ih.2 e
      obtain ⟨s1, e1, rfl⟩ := procStep_call hp (commits_not_reopen hc) e'
      have hin : (World.set _ p (.inside s1)).proc p = .inside s' := hin
      have : s1 = s' := by rw [World.set_proc, if_pos rfl] at hin; exact Phase.inside.inj hin
      subst this
      exact .inl ⟨_, s1, ih.called rfl hp (ih.1.logged.commit (ht x hp) e1 hc) (step_key (commits_not_reopen hc) e1), a.kept⟩
    · exact absurd hp (ih.outside p x)
  | @ends log l l' ev r _ e hend ih =>
    obtain ⟨p, rfl, hp, rfl⟩ := hend
    rcases lifeStep_destroy e with ⟨_, hno⟩ | ⟨ht, hh, -, -, rfl⟩
    · exact absurd ⟨p, rfl, hp, rfl⟩ hno
    · refine .inr ⟨rfl, rfl, .inl rfl, hh, ?_⟩
      intro q x hq
      rcases ih with ⟨log', s, ih, _⟩ | ⟨_, ih⟩
      · have := (ih.held hq).2.1
        rw [hh] at this; cases this
      · exact ih.outside q x hq
  | @other log l l' ev r _ ht e hnoe hno ih =>
    cases ev with
    | destroy p =>
      rcases lifeStep_destroy e with ⟨rfl, _⟩ | ⟨_, _, hp, rfl, _⟩
      · exact ih
      · exact absurd ⟨p, rfl, hp, rfl⟩ hnoe
    | ev ev =>
      rcases ih with ⟨log', s, ih, a⟩ | ⟨hlog, ih⟩
      · obtain ⟨w', e', rfl⟩ := lifeStep_there ih.2 e; replace e := e'
        left
        suffices h : ∃ s, MShared E log' ⟨w', true⟩ s by
          obtain ⟨s', h⟩ := h
          exact ⟨log', s', h, a⟩
        have hbefore : ((∃ p, ev = .look p) ∨ (∃ p rand, ev = .key p rand) ∨ (∃ p, ev = .count p) ∨
            (∃ p, ev = .leave p ∧ ∀ y, l.w.proc p ≠ .inside y) ∨ ∃ p op, ev = .call p op ∧ ∀ y, l.w.proc p ≠ .inside y) →
            ∃ s, MShared E log' ⟨w', true⟩ s := by
          intro hev
          rcases procStep_before e hev with rfl | ⟨x, hx, hp, rfl | ⟨hs, ⟨p, rand, rfl⟩, -⟩⟩
          · exact ⟨s, ih.1, rfl⟩
          · exact ⟨s, by show KShared E log' (World.bare _) s; rw [World.bare_same hp hx]; exact ih.1, rfl⟩
          · have h1 := ht hs ih.2
            have h2 : l.w.dir.keyFile = _ := ih.1.key
            rw [h1] at h2; cases h2
        cases ev with
        | look p => exact hbefore (.inl ⟨p, rfl⟩)
        | key p rand => exact hbefore (.inr (.inl ⟨p, rand, rfl⟩))
        | count p => exact hbefore (.inr (.inr (.inl ⟨p, rfl⟩)))
        | leave p =>
          cases hp : l.w.proc p with
          | inside x =>
            dsimp only [procStep] at e
            rw [hp] at e
            cases e
            obtain ⟨rfl, hh, hf⟩ := ih.held hp
            have hb : (({ l.w with holder := none } : World).set p .out).bare = ({ l.w.bare with holder := none } : World).set p .out := World.bare_set _ _ _
            refine ⟨x, ?_, rfl⟩
            show KShared E log' (World.bare _) x
            rw [hb]
            refine ih.1.moved (x := .out) rfl rfl (fun _ h => nomatch h) (fun _ h => nomatch h) (fun _ _ h => nomatch h) (fun h => nomatch h) ?_ (fun _ h => nomatch h) ?_
            · intro q
              refine ⟨fun h => (nomatch h), fun ⟨h1, h2⟩ => ?_⟩
              have h1 : l.w.holder = some q := h1
              rw [hh] at h1
              exact absurd (Option.some.inj h1).symm h2
            · intro _
              refine ⟨ht x hp, ?_⟩
              show ∃ F, _ ∧ _ ∧ _ ∧ OpensCut E _ F l.w.dir.files
              rw [hf]
              exact image_self _
          | _ => exact hbefore (.inr (.inr (.inr (.inl ⟨p, rfl, by rw [hp]; exact fun _ h => nomatch h⟩))))
        | call p op =>
          cases hp : l.w.proc p with
          | inside x =>
            obtain ⟨rfl, hh, -⟩ := ih.held hp
            by_cases hop : ∃ rand, op = .reopen rand
            · obtain ⟨rand, rfl⟩ := hop
              dsimp only [procStep] at e
              simp only [hp] at e
              cases e
              exact ⟨x, ih.1, rfl⟩
            · have hop' : ∀ rand, op ≠ .reopen rand := fun rand h => hop ⟨rand, h⟩
              obtain ⟨s1, e1, rfl⟩ := procStep_call hp hop' e
              refine ⟨s1, ih.called rfl hp (ih.1.logged.other (ht x hp) e1 ?_) (step_key hop' e1)⟩
              exact hno.imp id fun h c hc => h c ⟨x, hp, hc⟩
          | _ => exact hbefore (.inr (.inr (.inr (.inr ⟨p, op, rfl, by rw [hp]; exact fun _ h => nomatch h⟩))))
        | enter p =>
          dsimp only [procStep] at e
          split at e
          · rename_i k n hp
            have hout : ∀ y, l.w.proc p ≠ .inside y := by rw [hp]; exact fun _ h => nomatch h
            split at e
            · cases e
              exact ⟨s, by show KShared E log' (World.bare _) s; rw [World.bare_same hout (by intro _ h; cases h)]; exact ih.1, rfl⟩
            · rename_i hh
              have hh : l.w.holder = none := Decidable.not_not.1 hh
              obtain ⟨hk, hn⟩ := ht k n hp ih.2 hh
              have hk2 : l.w.dir.keyFile = some s.db.store.key.bytes := ih.1.key
              rw [hk] at hk2
              obtain rfl : k = s.db.store.key := B32.ext (Option.some.inj hk2)
              obtain ⟨st, hat, hk', hl', -⟩ := ih.1.open hE hh
              have hat : openAt E s.db.store.key l.w.dir.files.length l.w.dir.files = .ok (st.files, some st) := hat
              rw [hn, hat] at e
              simp only [Res.bind_ok, Res.pure_eq, Res.ok.injEq, Prod.mk.injEq] at e
              obtain ⟨rfl, -⟩ := e
              refine ⟨⟨⟨st, rootHash st, false⟩, fun _ => none⟩, ?_, rfl⟩
              show KShared E log' (World.bare (World.set _ p _)) _
              rw [World.bare_set]
              exact ih.1.called rfl rfl rfl rfl (fun q hq => by have hq : l.w.holder = some q := hq; rw [hh] at hq; cases hq) hl' hk'
          · cases e; exact ⟨s, ih.1, rfl⟩
      · -- there is no key file
        subst hlog
        cases hthere : l.there with
        | false =>
          right
          refine ⟨rfl, ?_⟩
          rcases lifeStep_gone hthere e with rfl | ⟨p, x, b, hx, rfl⟩
          · exact ih
          · refine ⟨ih.files, ?_, ih.free, ?_⟩
            · rcases ih.key with h | ⟨h, _⟩
              · exact .inl h
              · rw [hthere] at h; cases h
            intro q y hq
            have hq : (l.w.set p x).proc q = _ := hq
            rw [World.set_proc] at hq
            split at hq
            · exact hx y hq
            · exact ih.outside q y hq
        | true =>
          obtain ⟨w', e', rfl⟩ := lifeStep_there hthere e; replace e := e'
          have hbefore : ((∃ p, ev = .look p) ∨ (∃ p rand, ev = .key p rand) ∨ (∃ p, ev = .count p) ∨
              (∃ p, ev = .leave p ∧ ∀ y, l.w.proc p ≠ .inside y) ∨ ∃ p op, ev = .call p op ∧ ∀ y, l.w.proc p ≠ .inside y) →
              (∃ log' s, MShared E log' ⟨w', true⟩ s ∧ Settled [] log') ∨ (([] : List ((B32 × Contents) × Bool)) = [] ∧ Unmade ⟨w', true⟩) := by
            intro hev
            have hset : ∀ (d : Dir) (p : Nat) (x : Phase), (∀ y, x ≠ .inside y) → ∀ q y, (({ l.w with dir := d } : World).set p x).proc q ≠ .inside y := by
              intro d p x hx q y hq
              rw [World.set_proc] at hq
              split at hq
              · exact hx y hq
              · exact ih.outside q y hq
            rcases procStep_before e hev with rfl | ⟨x, hx, hp, rfl | ⟨hs, -, rand, rfl⟩⟩
            · exact .inr ⟨rfl, ih.files, ih.key.imp id fun h => ⟨rfl, h.2⟩, ih.free, ih.outside⟩
            · exact .inr ⟨rfl, ih.files, ih.key.imp id fun h => ⟨rfl, h.2⟩, ih.free, hset l.w.dir _ x hx⟩
            · obtain ⟨s, h⟩ := held_keyed (E := E) (w := ({ l.w with dir := { l.w.dir with keyFile := some rand.bytes } } : World).set ev.by x) (k := rand)
                (by show (⟨some rand.bytes, l.w.dir.files⟩ : Dir) = _; rw [ih.files]) ih.free (hset _ _ x hx)
              exact .inl ⟨[], s, h, .nil⟩
          cases ev with
          | look p => exact hbefore (.inl ⟨p, rfl⟩)
          | key p rand => exact hbefore (.inr (.inl ⟨p, rand, rfl⟩))
          | count p => exact hbefore (.inr (.inr (.inl ⟨p, rfl⟩)))
          | leave p => exact hbefore (.inr (.inr (.inr (.inl ⟨p, rfl, ih.outside p⟩))))
          | call p op => exact hbefore (.inr (.inr (.inr (.inr ⟨p, op, rfl, ih.outside p⟩))))
          | enter p =>
            cases hp : l.w.proc p with
            | counted k n =>
              have := (ht k n hp hthere ih.free).1
              exact absurd this (ih.no_key k)
            | _ =>
              dsimp only [procStep] at e
              simp only [hp] at e
              cases e
              exact .inr ⟨rfl, ih.files, ih.key.imp id fun h => ⟨rfl, h.2⟩, ih.free, ih.outside⟩
  | @inCommit log l p x s' op c F _ hp hal ha e hcm hown himg ih =>
    rcases ih with ⟨log', s, ih, a⟩ | ⟨_, ih⟩
    case inr => exact absurd hp (ih.outside p x)
    left
    obtain ⟨rfl, hh, -⟩ := ih.held hp
    have hkey := step_key (commits_not_reopen hcm) e
    have hno : (l.w.bare.killed p F).holder = none := by
      show (if l.w.holder = some p then none else l.w.holder) = none
      rw [if_pos hh]
    have hhold : ∀ q, (l.w.bare.killed p F).holder = some q ↔ l.w.bare.holder = some q ∧ q ≠ p := by
      intro q
      rw [hno]
      refine ⟨fun h => (nomatch h), fun ⟨h1, h2⟩ => ?_⟩
      have h1 : l.w.holder = some q := h1
      rw [hh] at h1
      exact absurd (Option.some.inj h1).symm h2
    suffices h : ∃ log2 s2, KShared E log2 (l.w.bare.killed p F) s2 ∧ Settled (((dbRoot s'.db, c), false) :: log) log2 by
      obtain ⟨log2, s2, h, a2⟩ := h
      refine ⟨log2, s2, ⟨?_, ih.2⟩, a2⟩
      show KShared E log2 (World.bare _) s2
      rw [World.bare_killed]
      exact h
    by_cases hcase : F = s'.db.store.files ∧ lastLen s'.db.store.files % metaSize = 0
    · obtain ⟨rfl, hal2⟩ := hcase
      have hl2 := Logged.commit ih.1.logged ha e hcm
      have hal3 : (s'.db.store.files.getLastD []).length % 38 = 0 := by
        rw [List.getLastD_eq_getLast?]; exact hal2
      have h1 := ih.1.called (w' := ({ l.w.bare with dir := { l.w.dir with files := s'.db.store.files } } : World).set p (.inside s')) rfl rfl rfl hh
        (fun q hq => by have hq : l.w.holder = some q := hq; rw [hh] at hq; exact (Option.some.inj hq).symm) hl2 hkey
      refine ⟨_, s', h1.moved (p := p) (x := .out) ?_ rfl (fun _ h => nomatch h) (fun _ h => nomatch h) (fun _ _ h => nomatch h) (fun h => nomatch h) hhold
        (fun q h => by rw [hno] at h; cases h) (fun _ => ⟨hal3, image_self _⟩), a.kept⟩
      funext q
      simp only [World.killed, World.set_proc]
      split <;> rfl
    · have hne : F ≠ s'.db.store.files ∨ lastLen s'.db.store.files % metaSize ≠ 0 := by
        by_cases h : F = s'.db.store.files
        · exact Or.inr fun h2 => hcase ⟨h, h2⟩
        · exact Or.inl h
      obtain ⟨c1, c2⟩ := image_clean himg hown hne
      refine ⟨log', x, ih.1.moved (p := p) (x := .out) rfl rfl (fun _ h => nomatch h) (fun _ h => nomatch h) (fun _ _ h => nomatch h) (fun h => nomatch h) hhold
        (fun q h => by rw [hno] at h; cases h) (fun _ => ⟨hal, F, himg.1, c1, c2, .nil _⟩), a.lost⟩
  | @inOpen log l p n k F _ hp hthere hfree hk hn hcut ih =>
    rcases ih with ⟨log', s, ih, a⟩ | ⟨_, ih⟩
    case inr => exact absurd hk (ih.no_key k)
    left
    have hk2 : l.w.dir.keyFile = some s.db.store.key.bytes := ih.1.key
    rw [hk] at hk2
    obtain rfl : k = s.db.store.key := B32.ext (Option.some.inj hk2)
    obtain ⟨hal, G, h1, h2, h3, h4⟩ := ih.1.free hfree
    have hno : (l.w.bare.killed p F).holder = none := by
      show (if l.w.holder = some p then none else l.w.holder) = none
      rw [hfree]; rfl
    refine ⟨log', s, ⟨?_, hthere⟩, a⟩
    show KShared E log' (World.bare _) s
    rw [World.bare_killed]
    refine ih.1.moved (p := p) (x := .out) rfl rfl (fun _ h => nomatch h) (fun _ h => nomatch h) (fun _ _ h => nomatch h) (fun h => nomatch h) ?_
      (fun q h => by rw [hno] at h; cases h) (fun _ => ⟨hal, G, h1, h2, h3, h4.snoc hcut⟩)
    intro q
    rw [hno]
    refine ⟨fun h => (nomatch h), fun h => ?_⟩
    have h1 : l.w.holder = some q := h.1
    rw [hfree] at h1; cases h1
  | @inDestroy log l p d _ hp hthere hfree hd ih =>
    have hout : ∀ q x, l.w.proc q ≠ .inside x := by
      rcases ih with ⟨log', s, ih, _⟩ | ⟨_, ih⟩
      · intro q x hq
        have := (ih.held hq).2.1
        rw [hfree] at this; cases this
      · exact ih.outside
    have hempty : d = Dir.fresh → (∃ log' s, MShared E log' ⟨{ l.w with dir := d }, true⟩ s ∧ Settled [] log') ∨
        (([] : List ((B32 × Contents) × Bool)) = [] ∧ Unmade ⟨{ l.w with dir := d }, true⟩) := fun h => .inr ⟨rfl, by rw [h]; rfl, .inl (by rw [h]; rfl), hfree, hout⟩
    rcases hd with hd | hd
    · rcases ih with ⟨log', s, ih, _⟩ | ⟨_, ih⟩
      · have hk : l.w.dir.keyFile = some s.db.store.key.bytes := ih.1.key
        rw [hk] at hd
        obtain ⟨s', h⟩ := held_keyed (E := E) (w := { l.w with dir := d }) hd hfree hout
        exact .inl ⟨[], s', h, .nil⟩
      · refine .inr ⟨rfl, by rw [hd], ?_, hfree, hout⟩
        show d.keyFile = none ∨ true = true ∧ ∃ b, d.keyFile = some b ∧ b.length < 32
        rw [hd]
        exact ih.key.imp id fun h => ⟨rfl, h.2⟩
    · exact hempty hd
  | @inKey log l p rand n _ hp hthere hk hn ih =>
    rcases ih with ⟨log', s, ih, _⟩ | ⟨hlog, ih⟩
    · have h2 : l.w.dir.keyFile = _ := ih.1.key
      rw [hk] at h2; cases h2
    · refine .inr ⟨hlog, ih.files, .inr ⟨rfl, _, rfl, ?_⟩, ih.free, ?_⟩
      · rw [List.length_take]; omega
      · intro q y hq
        have hq : (World.set _ p .out).proc q = _ := hq
        rw [World.set_proc] at hq
        split at hq
        · cases hq
        · exact ih.outside q y hq

theorem Settled.sub {l : List ((B32 × Contents) × Bool)} {m : List (B32 × Contents)} (h : Settled l m) {x : B32 × Contents} (hx : x ∈ m) :
    ∃ b, (x, b) ∈ l := by
  induction h with
  | nil => cases hx
  | @kept y b l m _ ih =>
    cases hx with
    | head => exact ⟨b, .head _⟩
    | tail _ hx => obtain ⟨b, h⟩ := ih hx; exact ⟨b, .tail _ h⟩
  | lost _ ih => obtain ⟨b, h⟩ := ih hx; exact ⟨b, .tail _ h⟩

/-- Whoever was killed whenever, the process that has the database open is the only one and has the lock; its database is one that an
execution without kills reaches, with every commit since the directory was made or last destroyed that returned success to any process, in order, and of those that
were cut off each as a whole or not at all; every root whose commit returned success can be opened and shows what was committed, and no root from before is known. -/
theorem C94_inside_partial {E : Env} (hE : EnvOk E) {log : List ((B32 × Contents) × Bool)} {l : Life} (h : Mortal E log l) {p : Nat} {s : Sys}
    (hp : l.w.proc p = .inside s) :
    l.w.holder = some p ∧ (∀ q s', l.w.proc q = .inside s' → q = p) ∧ l.there = true ∧ l.w.dir = s.db.dir ∧ (∃ log', Settled log log' ∧ Logged E log' s) ∧
    (∀ hc, (hc, true) ∈ log → ∃ db' tx c', txCreate E s.db (some hc.1) = .ok (db', .ok tx) ∧ Shows db' tx c' ∧
      (c' = hc.2 ∨ TreesCollide E.H hc.2 c')) ∧
    ∀ r, r ≠ B32.zero → (∀ c b, ((r, c), b) ∉ log) → ∃ db', txCreate E s.db (some r) = .ok (db', .error .ENOTFOUND) ∧ Unchanged s db' := by
  rcases h.inv hE with ⟨log', x, hx, hset⟩ | ⟨_, hx⟩
  · obtain ⟨rfl, hh, hf⟩ := hx.held hp
    refine ⟨hh, ?_, hx.2, ?_, ⟨log', hset, hx.1.logged⟩, ?_, ?_⟩
    · intro q s' hq
      have := (hx.held hq).2.1
      rw [hh] at this; exact (Option.some.inj this).symm
    · have hk : l.w.dir.keyFile = some s.db.store.key.bytes := hx.1.key
      show (⟨l.w.dir.keyFile, l.w.dir.files⟩ : Dir) = Db.dir _
      rw [hk, hf]; rfl
    · intro hc hm
      obtain ⟨db', tx, c', e, hs, _, hc⟩ := C19_snapshots hE hx.1.logged (List.mem_cons_of_mem _ (hset.mem hm))
      exact ⟨db', tx, c', e, hs, hc⟩
    · intro r hr hu
      refine (C20_unknown_root_partial hE hx.1.logged hr fun c hc => ?_).1
      obtain ⟨b, hb⟩ := hset.sub hc
      exact hu c b hb
  · exact absurd hp (hx.outside p s)

theorem Mortal.free {E : Env} (hE : EnvOk E) {log : List ((B32 × Contents) × Bool)} {l : Life} (h : Mortal E log l)
    (hnone : ∀ q x, l.w.proc q ≠ .inside x) : l.w.holder = none := by
  rcases h.inv hE with ⟨log', x, hx, _⟩ | ⟨_, hx⟩
  · cases hh : l.w.holder with
    | none => rfl
    | some q => exact absurd (World.inside_bare (hx.1.holds q hh).1) (hnone q x)
  · exact hx.free

/-- `urkel_destroy` succeeds if the directory is there and nobody has the database open, also when processes have been killed in it. -/
theorem C94_destroy {E : Env} (hE : EnvOk E) {log : List ((B32 × Contents) × Bool)} {l : Life} (h : Mortal E log l) {p : Nat} (hout : l.w.proc p = .out)
    (hthere : l.there = true) (hnone : ∀ q x, l.w.proc q ≠ .inside x) :
    ∃ l', lifeStep E l (.destroy p) = .ok (l', .unit) ∧ Mortal E [] l' ∧ l'.there = false ∧ l'.w.dir = Dir.fresh ∧ l'.w.proc = l.w.proc := by
  have e : lifeStep E l (.destroy p) = .ok (⟨{ l.w with dir := Dir.fresh }, false⟩, .unit) := by
    dsimp only [lifeStep]
    rw [hout]
    dsimp only
    rw [if_pos ⟨hthere, h.free hE hnone⟩]
  exact ⟨_, e, h.ends e ⟨p, rfl, hout, rfl⟩, rfl, rfl, rfl⟩

/-- It fails while another process has the database open, and if there is no directory, and then changes nothing. -/
theorem C94_destroy_fails {E : Env} (hE : EnvOk E) {log : List ((B32 × Contents) × Bool)} {l : Life} (h : Mortal E log l) {p : Nat} (hout : l.w.proc p = .out)
    (hno : l.there = false ∨ ∃ q x, l.w.proc q = .inside x) : lifeStep E l (.destroy p) = .ok (l, .fail .EBADOPEN) := by
  have hc : ¬ (l.there = true ∧ l.w.holder = none) := by
    rintro ⟨ht, hh⟩
    rcases hno with hno | ⟨q, x, hq⟩
    · rw [ht] at hno; cases hno
    · rw [(C94_inside_partial hE h hq).1] at hh; cases hh
  dsimp only [lifeStep]
  rw [hout]
  dsimp only
  rw [if_neg hc]

/-- When nobody has the database open, whoever was killed in it, a process that opens it without another getting in between succeeds, and
finds the newest of the commits that are there. If there was no key file the database has a new key. (If a process was killed while it wrote the key file: `C94_half_key`.) -/
theorem C94_open_partial {E : Env} (hE : EnvOk E) {log : List ((B32 × Contents) × Bool)} {l : Life} (h : Mortal E log l) {p : Nat} (rand : B32)
    (hnone : ∀ q x, l.w.proc q ≠ .inside x) (hout : l.w.proc p = .out) (hwhole : ∀ b, l.w.dir.keyFile = some b → b.length = 32) :
    ∃ l' s tx log', lifeRun E l ((opening p rand).map .ev) = .ok (l', [.unit, .unit, .unit, .unit]) ∧ Mortal E log l' ∧
      (∀ q, q ≠ p → l'.w.proc q = l.w.proc q) ∧ l'.w.proc p = .inside s ∧ Settled log log' ∧
      dbRoot s.db = (log'.map Prod.fst).headD B32.zero ∧ s.db.revert = false ∧
      txCreate E s.db none = .ok (s.db, .ok tx) ∧ Shows s.db tx ((log'.map Prod.snd).headD Contents.empty) ∧
      (l.w.dir.keyFile = none → s.db.store.key = rand) := by
  have hfree := h.free hE hnone
  have hkf : l.w.dir.keyFile = none ∨ l.there = true ∧ ∃ k : B32, l.w.dir.keyFile = some k.bytes := by
    rcases h.inv hE with ⟨log', x, hx, _⟩ | ⟨_, hx⟩
    · exact .inr ⟨hx.2, x.db.store.key, hx.1.key⟩
    · rcases hx.key with h | ⟨_, b, h, hb⟩
      · exact .inl h
      · have := hwhole b h; omega
  -- look
  have e0 : lifeStep E l (.ev (.look p)) = .ok (⟨l.w.set p (.saw l.w.dir.keyFile.isSome), true⟩, .unit) := by
    cases ht : l.there with
    | true =>
      refine lifeStep_of ht ?_
      dsimp only [procStep]; rw [hout]
    | false =>
      dsimp only [lifeStep]
      have : l.w.dir.keyFile = none := by
        rcases hkf with h | ⟨h, _⟩
        · exact h
        · rw [ht] at h; cases h
      rw [if_neg (by rw [ht]; decide), hout, this]
      rfl
  have v0 := h.other (ev := .ev (.look p)) trivial e0 Life.not_ends (.inr fun _ h => h)
  -- key
  obtain ⟨k, l1, e1, hl1t, hl1f, hl1k, hl1p, hl1o, fair1, hkr⟩ : ∃ (k : B32) (l1 : Life),
      lifeStep E ⟨l.w.set p (.saw l.w.dir.keyFile.isSome), true⟩ (.ev (.key p rand)) = .ok (l1, .unit) ∧ l1.there = true ∧ l1.w.holder = none ∧
      l1.w.dir.keyFile = some k.bytes ∧ l1.w.proc p = .keyed k ∧ (∀ q, q ≠ p → l1.w.proc q = l.w.proc q) ∧
      FairK E ⟨l.w.set p (.saw l.w.dir.keyFile.isSome), true⟩ (.ev (.key p rand)) ∧ (l.w.dir.keyFile = none → k = rand) := by
    have hp0 : (l.w.set p (.saw l.w.dir.keyFile.isSome)).proc p = .saw l.w.dir.keyFile.isSome := if_pos rfl
    have ho0 : ∀ (x : Phase) (d : Dir) q, q ≠ p → (({ l.w.set p (.saw l.w.dir.keyFile.isSome) with dir := d } : World).set p x).proc q = l.w.proc q := by
      intro x d q hq
      rw [World.set_proc, if_neg hq]
      exact if_neg hq
    rcases hkf with hk | ⟨_, k, hk⟩
    · rw [hk] at hp0 ho0 ⊢
      refine ⟨rand, _, lifeStep_of rfl (w' := ({ l.w.set p (.saw false) with dir := { l.w.dir with keyFile := some rand.bytes } } : World).set p (.keyed rand)) ?_, rfl, hfree, rfl,
        if_pos rfl, ho0 _ _, fun _ _ => hk, fun _ => rfl⟩
      dsimp only [procStep]
      rw [show (l.w.set p (.saw (none : Option Bytes).isSome)).proc p = .saw false from hp0]
      rfl
    · rw [hk] at hp0 ho0 ⊢
      refine ⟨k, _, lifeStep_of rfl (w' := (l.w.set p (.saw true)).set p (.keyed k)) ?_, rfl, hfree, hk, if_pos rfl, ho0 _ l.w.dir,
        fun h => ?_, fun h => nomatch h⟩
      · dsimp only [procStep]
        rw [show (l.w.set p (.saw (some k.bytes).isSome)).proc p = .saw true from hp0, show (l.w.set p (.saw (some k.bytes).isSome)).dir.key rand = some k from key_of_file hk rand]
        dsimp only
        rw [show (l.w.set p (.saw (some k.bytes).isSome)).dir.keyFile = some k.bytes from hk]
        rfl
      · have h : (l.w.set p (.saw true)).proc p = .saw false := h
        rw [show (l.w.set p (.saw true)).proc p = .saw true from hp0] at h; cases h
  have v1 := v0.other fair1 e1 Life.not_ends (.inr fun _ h => h)
  -- count
  have e2 : lifeStep E l1 (.ev (.count p)) = .ok (⟨l1.w.set p (.counted k l1.w.dir.files.length), true⟩, .unit) := by
    refine lifeStep_of hl1t ?_
    dsimp only [procStep]; rw [hl1p]
  have v2 := v1.other (ev := .ev (.count p)) trivial e2 Life.not_ends (.inr fun _ h => h)
  have hp2 : (l1.w.set p (.counted k l1.w.dir.files.length)).proc p = .counted k l1.w.dir.files.length := if_pos rfl
  -- enter
  have hen : ∃ st, openAt E k l1.w.dir.files.length l1.w.dir.files = .ok (st.files, some st) ∧ st.key = k := by
    rcases v2.inv hE with ⟨log', x, hx, _⟩ | ⟨_, hx⟩
    · have hk2 : l1.w.dir.keyFile = some x.db.store.key.bytes := hx.1.key
      rw [hl1k] at hk2
      obtain rfl : k = x.db.store.key := B32.ext (Option.some.inj hk2)
      obtain ⟨st, hat, hk', -, -⟩ := hx.1.open hE hl1f
      exact ⟨st, hat, hk'⟩
    · exact absurd hl1k (hx.no_key k)
  obtain ⟨st, hat, hstk⟩ := hen
  have e3 : lifeStep E ⟨l1.w.set p (.counted k l1.w.dir.files.length), true⟩ (.ev (.enter p)) =
      .ok (⟨({ l1.w.set p (.counted k l1.w.dir.files.length) with dir := { l1.w.dir with files := st.files }, holder := some p } : World).set p
        (.inside ⟨⟨st, rootHash st, false⟩, fun _ => none⟩), true⟩, .unit) := by
    refine lifeStep_of rfl ?_
    dsimp only [procStep]
    rw [hp2]
    dsimp only
    rw [if_neg (show ¬ (l1.w.set p (.counted k l1.w.dir.files.length)).holder ≠ none by intro h; exact h hl1f)]
    rw [show (l1.w.set p (.counted k l1.w.dir.files.length)).dir.files = l1.w.dir.files from rfl, hat]
    rfl
  have v3 := v2.other (ev := .ev (.enter p)) (by
    intro k' n' h' _ _
    have h' : (l1.w.set p (.counted k l1.w.dir.files.length)).proc p = _ := h'
    rw [hp2] at h'
    cases h'
    exact ⟨hl1k, rfl⟩) e3 Life.not_ends (.inr fun _ h => h)
  obtain ⟨-, -, -, -, ⟨log', hset, hlg⟩, -, -⟩ := C94_inside_partial hE v3 (p := p) (s := ⟨⟨st, rootHash st, false⟩, fun _ => none⟩) (by
    show (World.set _ p _).proc p = _
    rw [World.set_proc, if_pos rfl])
  obtain ⟨tx, h1, h2, h3⟩ := hlg.shown hE rfl
  refine ⟨_, _, tx, log', lifeRun_cons e0 (lifeRun_cons e1 (lifeRun_cons e2 (lifeRun_cons e3 rfl))), v3, ?_, ?_, hset, h1, rfl, h2, h3, ?_⟩
  · intro q hq
    show (World.set _ p _).proc q = _
    rw [World.set_proc, if_neg hq]
    show (World.set _ p _).proc q = _
    rw [World.set_proc, if_neg hq]
    exact hl1o q hq
  · show (World.set _ p _).proc p = _
    rw [World.set_proc, if_pos rfl]
  · intro hno
    rw [← hkr hno]
    exact hstk

/-- If a process has been killed while it wrote the key file, nothing had been committed; no process has or gets the database open, a call of `urkel_open` fails and changes nothing, and
`urkel_destroy` (`C94_destroy`) removes the directory. -/
theorem C94_half_key {E : Env} (hE : EnvOk E) {log : List ((B32 × Contents) × Bool)} {l : Life} (h : Mortal E log l) {b : Bytes}
    (hk : l.w.dir.keyFile = some b) (hb : b.length ≠ 32) :
    log = [] ∧ l.there = true ∧ (∀ q x, l.w.proc q ≠ .inside x) ∧
    ∀ p rand, l.w.proc p = .out → ∃ l', lifeRun E l [.ev (.look p), .ev (.key p rand)] = .ok (l', [.unit, .fail .EBADOPEN]) ∧ Mortal E log l' ∧
      l'.w.dir = l.w.dir ∧ ∀ q, l'.w.proc q = l.w.proc q := by
  rcases h.inv hE with ⟨log', x, hx, _⟩ | ⟨hlog, hx⟩
  · have h2 : l.w.dir.keyFile = _ := hx.1.key
    rw [hk] at h2
    cases h2
    exact absurd x.db.store.key.len hb
  obtain ⟨ht, b', hk', hb'⟩ : l.there = true ∧ ∃ b, l.w.dir.keyFile = some b ∧ b.length < 32 := by
    rcases hx.key with h | h
    · rw [hk] at h; cases h
    · exact h
  rw [hk] at hk'
  cases hk'
  refine ⟨hlog, ht, hx.outside, fun p rand hout => ?_⟩
  have e0 : lifeStep E l (.ev (.look p)) = .ok (⟨l.w.set p (.saw true), true⟩, .unit) := by
    refine lifeStep_of ht ?_
    dsimp only [procStep]; rw [hout, hk]; rfl
  have v0 := h.other (ev := .ev (.look p)) trivial e0 Life.not_ends (.inr fun _ h => h)
  have hp0 : (l.w.set p (.saw true)).proc p = .saw true := if_pos rfl
  have e1 : lifeStep E ⟨l.w.set p (.saw true), true⟩ (.ev (.key p rand)) = .ok (⟨(l.w.set p (.saw true)).set p .out, true⟩, .fail .EBADOPEN) := by
    refine lifeStep_of rfl ?_
    dsimp only [procStep]
    rw [hp0, show (l.w.set p (.saw true)).dir.keyFile = some b from hk]
    have : (l.w.set p (.saw true)).dir.key rand = none := by
      unfold Dir.key
      rw [show (l.w.set p (.saw true)).dir.keyFile = some b from hk]
      dsimp only
      rw [dif_neg (by omega)]
    dsimp only
    rw [this]
  have v1 := v0.other (ev := .ev (.key p rand)) (fun h => by
    have h : (l.w.set p (.saw true)).proc p = .saw false := h
    rw [hp0] at h; cases h) e1 Life.not_ends (.inr fun _ h => h)
  refine ⟨_, lifeRun_cons e0 (lifeRun_cons e1 rfl), v1, rfl, fun q => ?_⟩
  show (World.set _ p _).proc q = _
  rw [World.set_proc]
  split
  · rename_i h; rw [h, hout]
  · show (World.set _ p _).proc q = _
    rw [World.set_proc, if_neg (by assumption)]

/-- A process is killed while it writes the key file of a new directory. -/
theorem C94_half_key_example : ∃ l b, Mortal toyEnv [] l ∧ l.w.dir.keyFile = some b ∧ b.length ≠ 32 ∧ l.w.proc 2 = .out := by
  have e0 : lifeStep toyEnv Life.fresh (.ev (.look 1)) = .ok (⟨Life.fresh.w.set 1 (.saw false), true⟩, .unit) := rfl
  have v0 := (Mortal.start (E := toyEnv)).other (ev := .ev (.look 1)) trivial e0 Life.not_ends (.inr fun _ h => h)
  have v1 := v0.inKey (p := 1) (rand := B32.zero) (n := 5) (by show (World.set _ 1 _).proc 1 = _; rw [World.set_proc, if_pos rfl]) rfl rfl (by decide)
  exact ⟨_, _, v1, rfl, by decide, rfl⟩

/-- A process is killed in the middle of the first commit to a new directory, the next one while it recovers the files in `urkel_open`; a third one
opens the database; or a fourth one destroys it. -/
theorem C94_example : ∃ (log : List ((B32 × Contents) × Bool)) (l8 l9 l10 : Life) (s : Sys) (tx : Tx), log.length = 1 ∧ Mortal toyEnv log l8 ∧
    l8.there = true ∧ l8.w.dir = ⟨some B32.zero.bytes, []⟩ ∧ Mortal toyEnv log l9 ∧ l9.w.proc 3 = .inside s ∧
    l9.w.holder = some 3 ∧ txCreate toyEnv s.db none = .ok (s.db, .ok tx) ∧
    lifeStep toyEnv l9 (.destroy 4) = .ok (l9, .fail .EBADOPEN) ∧ lifeStep toyEnv l8 (.destroy 4) = .ok (l10, .unit) ∧ Mortal toyEnv [] l10 ∧ l10.there = false := by
  have hlen : firstFiles = [(firstFiles.getD 0 []).take 50 ++ (firstFiles.getD 0 []).drop 50] ∧ (firstFiles.getD 0 []).length = 114 := by
    decide +kernel
  set_option synthInstance.maxHeartbeats 200000 in
  set_option synthInstance.maxSize 1000 in
  have hown : OnlyOwnRecord toyEnv B32.zero [[]] firstFiles := onlyOwn_of (by decide +kernel)
  obtain ⟨hist, t, hd, ht⟩ := (sys2_logged (keyOf 1) [7] (by decide)).reachable.tree toyEnv_ok (sys2_tx _ _)
  have hcan := sys2_can (keyOf 1) [7] (by decide)
  have hsh := sys2_shows (keyOf 1) [7] (by decide)
  obtain ⟨hv, hcap⟩ := canCommit_tree hd ht hcan
  obtain ⟨db', tx', e, _, _, _⟩ := txCommit_ok toyEnv_ok hd ht hv hcap
  have hff : firstFiles = db'.store.files := by
    unfold firstFiles
    rw [show txCommit toyEnv db0 (leafTx (keyOf 1) [7]) = _ from e]
  have es : step toyEnv (sys2 (keyOf 1) [7]) (.commit 0) =
      .ok (({ sys2 (keyOf 1) [7] with db := db' } : Sys).setTx 0 (some tx'), .unit) := by
    simp only [step, Sys.tx, sys2_tx, Res.bind_ok, e, Res.pure_eq]; rfl
  have hcut : OpenCut toyEnv B32.zero [(firstFiles.getD 0 []).take 50] [] := ⟨[[], [[]]], by decide +kernel, by decide⟩
  -- process 1
  have a1 : ∃ l, Mortal toyEnv [] l ∧ l.w.proc 1 = .inside sys0 ∧ ∀ q, q ≠ 1 → l.w.proc q = .out := by
    obtain ⟨l1, s1, tx1, g1, r1, k1, o1, p1, -⟩ := C94_open_partial toyEnv_ok .start (p := 1) B32.zero (fun _ _ h => nomatch h) rfl (fun _ h => nomatch h)
    have hs1 : s1 = sys0 := by
      have h0 : ∃ l, lifeRun toyEnv Life.fresh ((opening 1 B32.zero).map .ev) = .ok (l, [.unit, .unit, .unit, .unit]) ∧ l.w.proc 1 = .inside sys0 := ⟨_, rfl, rfl⟩
      obtain ⟨w2, r2, p2⟩ := h0
      rw [r2] at r1
      cases r1
      rw [p2] at p1
      exact (Phase.inside.inj p1).symm
    subst hs1
    exact ⟨l1, k1, p1, o1⟩
  obtain ⟨l1, k1, p1, o1⟩ := a1
  have t1 := (C94_inside_partial toyEnv_ok k1 p1).2.2.1
  have b2 := lifeStep_of t1 (call_step p1 (op := .create 0 none) (fun _ h => (by cases h)) sys1_step)
  have k2 := k1.other (ev := .ev (.call 1 (.create 0 none))) (fun _ _ => trivial) b2 Life.not_ends (.inr fun c ⟨_, _, h⟩ => h)
  generalize hw2 : World.set _ 1 (.inside sys1) = w2 at b2 k2
  have p2 : w2.proc 1 = .inside sys1 := by subst hw2; rw [World.set_proc, if_pos rfl]
  have o2 : ∀ q, q ≠ 1 → w2.proc q = .out := by subst hw2; intro q hq; rw [World.set_proc, if_neg hq]; exact o1 q hq
  have b3 := lifeStep_of (l := ⟨w2, true⟩) rfl (call_step p2 (op := .insert 0 (keyOf 1) [7]) (fun _ h => (by cases h)) (sys2_step (keyOf 1) [7] (by decide)))
  have k3 := k2.other (ev := .ev (.call 1 (.insert 0 (keyOf 1) [7]))) (fun y hy => by
      have hy : w2.proc 1 = _ := hy
      rw [p2] at hy; cases hy
      simp only [Allowed]; exact fun h => nomatch h) b3 Life.not_ends (.inr fun c ⟨_, _, h⟩ => h)
  generalize hw3 : World.set _ 1 (.inside (sys2 (keyOf 1) [7])) = w3 at b3 k3
  have p3 : w3.proc 1 = .inside (sys2 (keyOf 1) [7]) := by subst hw3; rw [World.set_proc, if_pos rfl]
  have o3 : ∀ q, q ≠ 1 → w3.proc q = .out := by subst hw3; intro q hq; rw [World.set_proc, if_neg hq]; exact o2 q hq
  obtain ⟨hh3, -, -, hdir3, -, -⟩ := C94_inside_partial toyEnv_ok k3 p3
  have hh3 : w3.holder = some 1 := hh3
  have hdir3 : w3.dir = _ := hdir3
  have k4 := k3.inCommit (p := 1) (op := .commit 0) (F := [(firstFiles.getD 0 []).take 50]) (c := Contents.ofList [(keyOf 1, [7])]) p3 rfl ⟨_, sys2_tx _ _, hcan⟩ es
    ⟨_, sys2_tx _ _, hsh⟩ (show OnlyOwnRecord toyEnv B32.zero [[]] db'.store.files by rw [← hff]; exact hown)
    ⟨Or.inr ⟨[], [], (firstFiles.getD 0 []).take 50, [], rfl, by simp only [List.nil_append, List.append_nil]⟩,
     Or.inr ⟨[], (firstFiles.getD 0 []).take 50, (firstFiles.getD 0 []).drop 50, [], rfl, by
      show db'.store.files = _
      rw [← hff]; exact hlen.1⟩⟩
  have k4 : Mortal toyEnv _ ⟨w3.killed 1 [(firstFiles.getD 0 []).take 50], true⟩ := k4
  generalize hw4 : w3.killed 1 [(firstFiles.getD 0 []).take 50] = w4 at k4
  have f4 : w4.dir.files = [(firstFiles.getD 0 []).take 50] := by subst hw4; rfl
  have kf4 : w4.dir.keyFile = some B32.zero.bytes := by
    subst hw4
    show w3.dir.keyFile = _
    rw [hdir3]; rfl
  have h4 : w4.holder = none := by
    subst hw4
    show (if w3.holder = some 1 then none else w3.holder) = none
    rw [if_pos hh3]
  have o4 : ∀ q, w4.proc q = .out := by
    subst hw4; intro q
    simp only [World.killed, World.set_proc]
    split
    · rfl
    · rename_i hq; exact o3 q hq
  -- process 2
  have s5 := lifeStep_of (l := ⟨w4, true⟩) rfl (show procStep toyEnv w4 (.look 2) = .ok (w4.set 2 (.saw true), .unit) by
    dsimp only [procStep]; rw [o4 2, kf4]; rfl)
  have k5 := k4.other (ev := .ev (.look 2)) trivial s5 Life.not_ends (.inr fun _ h => h)
  have s6 := lifeStep_of (l := ⟨w4.set 2 (.saw true), true⟩) rfl (show procStep toyEnv (w4.set 2 (.saw true)) (.key 2 B32.zero) = .ok ((w4.set 2 (.saw true)).set 2 (.keyed B32.zero), .unit) by
    dsimp only [procStep]
    rw [show (w4.set 2 (.saw true)).proc 2 = .saw true by rw [World.set_proc, if_pos rfl], show (w4.set 2 (.saw true)).dir.keyFile = _ from kf4]
    dsimp only
    have : (w4.set 2 (.saw true)).dir.key B32.zero = some B32.zero := by
      unfold Dir.key
      rw [show (w4.set 2 (.saw true)).dir.keyFile = _ from kf4]
      decide +kernel
    rw [this])
  have k6 := k5.other (ev := .ev (.key 2 B32.zero)) (fun h => by
    have h : (w4.set 2 (.saw true)).proc 2 = .saw false := h
    rw [World.set_proc, if_pos rfl] at h; cases h) s6 Life.not_ends (.inr fun _ h => h)
  generalize hw6 : (w4.set 2 (.saw true)).set 2 (.keyed B32.zero) = w6 at s6 k6
  have p6 : w6.proc 2 = .keyed B32.zero := by subst hw6; rw [World.set_proc, if_pos rfl]
  have s7 := lifeStep_of (l := ⟨w6, true⟩) rfl (show procStep toyEnv w6 (.count 2) = .ok (w6.set 2 (.counted B32.zero w6.dir.files.length), .unit) by
    dsimp only [procStep]
    rw [p6])
  have k7 := k6.other (ev := .ev (.count 2)) trivial s7 Life.not_ends (.inr fun _ h => h)
  have f7 : w6.dir.files = [(firstFiles.getD 0 []).take 50] := by subst hw6; exact f4
  have kf7 : w6.dir.keyFile = some B32.zero.bytes := by subst hw6; exact kf4
  have h7 : w6.holder = none := by subst hw6; exact h4
  have k8 := k7.inOpen (p := 2) (k := B32.zero) (n := w6.dir.files.length) (F := []) (by show (World.set _ 2 _).proc 2 = _; rw [World.set_proc, if_pos rfl]) rfl h7 kf7 rfl
    (by show OpenCut toyEnv B32.zero w6.dir.files []; rw [f7]; exact hcut)
  have k8 : Mortal toyEnv _ ⟨(w6.set 2 (.counted B32.zero w6.dir.files.length)).killed 2 [], true⟩ := k8
  have d8 : ((w6.set 2 (.counted B32.zero w6.dir.files.length)).killed 2 []).dir = ⟨some B32.zero.bytes, []⟩ := by
    show (⟨w6.dir.keyFile, []⟩ : Dir) = _
    rw [kf7]
  have o8 : ∀ q, ((w6.set 2 (.counted B32.zero w6.dir.files.length)).killed 2 []).proc q = .out := by
    subst hw6
    intro q
    simp only [World.killed, World.set_proc]
    split
    · rfl
    · exact o4 q
  generalize World.killed _ 2 [] = w8 at k8 d8 o8
  have h8 : ∀ q y, w8.proc q ≠ .inside y := fun q y => by rw [o8 q]; exact fun h => nomatch h
  -- process 3
  obtain ⟨l9, s9, tx9, g9, -, k9, o9, p9, -, -, -, c9, -⟩ := C94_open_partial toyEnv_ok k8 (p := 3) B32.zero h8 (o8 3) (fun b hb => by
    have hb : w8.dir.keyFile = _ := hb
    rw [d8] at hb; cases hb; exact B32.zero.len)
  have f9 := C94_destroy_fails toyEnv_ok k9 (p := 4) ((o9 4 (by decide)).trans (o8 4)) (.inr ⟨3, s9, p9⟩)
  -- process 4
  obtain ⟨l10, e10, k10, t10, -⟩ := C94_destroy toyEnv_ok k8 (p := 4) (o8 4) rfl h8
  exact ⟨_, _, l9, l10, s9, tx9, rfl, k8, rfl, d8, k9, p9, (C94_inside_partial toyEnv_ok k9 p9).1, c9, f9, e10, k10, t10⟩

end Urkel
