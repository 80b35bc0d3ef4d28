import Verif.Spec.Cli
import Verif.Props.Util
import Verif.Props.Iter
import Verif.Props.OneShot
/-
C61, C62: the command line tool.
-/
namespace Urkel
open PTree

/-! ### C61: what a command line means -/

theorem isHex_iff : ∀ (s d : Bytes), IsHex s d ↔ hexBytes s = some d := by
  intro s
  induction s using hexBytes.induct with
  | case1 => intro d; constructor
             · intro h; cases h; rfl
             · intro h; cases h; exact .nil
  | case2 => intro d; constructor
             · intro h; cases h
             · intro h; cases h
  | case3 a b s x y d0 hd hy hx ih =>
    intro d
    rw [hexBytes, hx, hy, hd]
    constructor
    · intro h
      cases h with
      | cons h1 h2 h3 =>
        rw [show digit a = hexVal a from rfl, hx] at h1
        rw [show digit b = hexVal b from rfl, hy] at h2
        cases h1; cases h2
        rw [(ih _).1 h3] at hd
        cases hd
        rfl
    · intro h
      injection h with h
      subst h
      exact .cons hx hy ((ih _).2 hd)
  | case4 a b s hn ih =>
    intro d
    constructor
    · intro h
      cases h with
      | cons h1 h2 h3 => exact (hn _ _ _ h1 h2 ((ih _).1 h3)).elim
    · intro h
      rw [hexBytes] at h
      split at h
      · next h1 h2 h3 => exact (hn _ _ _ h1 h2 h3).elim
      · cases h

theorem hex32_iff {s : Bytes} {h : B32} : hex32 s = some h ↔ IsHex s h.bytes := by
  rw [isHex_iff]
  unfold hex32
  cases e : base16Decode32 s with
  | none =>
    refine ⟨(fun h => nomatch h), fun h1 => ?_⟩
    rw [(C52_base16_decode32 s h.bytes).2 ⟨h1, h.len⟩] at e
    cases e
  | some b =>
    obtain ⟨h1, h2⟩ := (C52_base16_decode32 s b).1 e
    simp only [h2, ↓reduceDIte, h1, Option.some.injEq]
    constructor
    · rintro rfl; rfl
    · intro h3; exact B32.ext h3

theorem keyArg_iff {H : HashFn} {hashed : Bool} {s : Bytes} {k : B32} : keyArg H hashed s = some k ↔ IsKey H hashed s k := by
  unfold keyArg IsKey
  cases hashed
  · simp only [Bool.false_eq_true, if_false]; exact hex32_iff
  · simp only [if_true, Option.some.injEq]; exact eq_comm

theorem getLast_cons_or {α : Type} (x : α) (l : List α) (o : Option α) : (x :: l).getLast?.or o = l.getLast?.or (some x) := by
  cases l with
  | nil => rfl
  | cons y l => rw [List.getLast?_cons_cons]; simp [List.getLast?_cons]

/-- What the items add to the options read so far. -/
structure Adds (items : List Item) (o o' : CliOpts) : Prop where
  ok : ∀ i ∈ items, i.ok
  args : o'.args = o.args ++ items.filterMap Item.operand?
  few : o'.args.length ≤ 32
  path : o'.path = (items.filterMap Item.path?).getLast?.or o.path
  root : match (items.filterMap Item.root?).getLast? with | none => o'.root = o.root | some s => ∃ h : B32, o'.root = some h ∧ IsHex s h.bytes
  hash : o'.hashKey = (items.any Item.isHash || o.hashKey)

theorem Adds.cons {i : Item} {items : List Item} {o o1 o' : CliOpts} (h1 : Adds [i] o o1) (h2 : Adds items o1 o') : Adds (i :: items) o o' := by
  obtain ⟨a1, b1, c1, d1, e1, f1⟩ := h1
  obtain ⟨a2, b2, c2, d2, e2, f2⟩ := h2
  refine ⟨?_, ?_, c2, ?_, ?_, ?_⟩
  · intro x hx
    rcases List.mem_cons.1 hx with rfl | hx
    · exact a1 _ (.head _)
    · exact a2 _ hx
  · rw [b2, b1, List.append_assoc]
    rw [← List.filterMap_append]; rfl
  · rw [d2, d1]
    cases i <;> simp [List.filterMap_cons, Item.path?, getLast_cons_or]
  · cases i with
    | root long s =>
      simp only [List.filterMap_cons, Item.root?, List.filterMap_nil, List.getLast?_singleton] at e1
      simp only [List.filterMap_cons, Item.root?]
      cases hl : (items.filterMap Item.root?).getLast? with
      | none =>
        rw [hl] at e2
        simp only at e2
        have : items.filterMap Item.root? = [] := List.getLast?_eq_none_iff.1 hl
        rw [this]
        simp only [List.getLast?_singleton]
        rw [e2]; exact e1
      | some x =>
        rw [hl] at e2
        rw [List.getLast?_cons, hl]
        exact e2
    | path | hash | operand =>
      simp only [List.filterMap_cons, Item.root?, List.filterMap_nil, List.getLast?_nil] at e1
      simp only [List.filterMap_cons, Item.root?]
      cases hl : (items.filterMap Item.root?).getLast? with
      | none => rw [hl] at e2; exact e2.trans e1
      | some x => rw [hl] at e2; exact e2
  · rw [f2, f1]
    cases i <;> simp [Item.isHash]

theorem Adds.uncons {i : Item} {items : List Item} {o o' : CliOpts} (h : Adds (i :: items) o o') :
    ∃ o1, Adds [i] o o1 ∧ Adds items o1 o' := by
  obtain ⟨a, b, c, d, e, f⟩ := h
  have hl : (o.args ++ [i].filterMap Item.operand?).length ≤ 32 := by
    rw [b] at c
    cases i <;> simp [List.filterMap_cons, Item.operand?] at c ⊢ <;> omega
  have hi := a i (.head _)
  have ha : ∀ j ∈ items, j.ok := fun j hj => a j (.tail _ hj)
  have hb : o'.args = (o.args ++ [i].filterMap Item.operand?) ++ items.filterMap Item.operand? := by
    rw [b, List.append_assoc, ← List.filterMap_append]; rfl
  cases i with
  | path long p =>
    refine ⟨{ o with path := some p }, ⟨by simpa using hi, by simp [List.filterMap_cons, Item.operand?], by simpa [List.filterMap_cons, Item.operand?] using hl, by simp [List.filterMap_cons, Item.path?],
      by simp [List.filterMap_cons, Item.root?], by simp [Item.isHash]⟩, ⟨ha, by simpa [List.filterMap_cons, Item.operand?] using hb, c, ?_, by simpa [List.filterMap_cons, Item.root?] using e, by simpa [Item.isHash] using f⟩⟩
    rw [d]; simp [List.filterMap_cons, Item.path?, getLast_cons_or]
  | root long s =>
    obtain ⟨h, hh⟩ := hi
    refine ⟨{ o with root := some h }, ⟨by simpa using a _ (.head _), by simp [List.filterMap_cons, Item.operand?], by simpa [List.filterMap_cons, Item.operand?] using hl, by simp [List.filterMap_cons, Item.path?],
      by simpa [List.filterMap_cons, Item.root?] using hh, by simp [Item.isHash]⟩, ⟨ha, by simpa [List.filterMap_cons, Item.operand?] using hb, c, by simpa [List.filterMap_cons, Item.path?] using d, ?_, by simpa [Item.isHash] using f⟩⟩
    simp only [List.filterMap_cons, Item.root?] at e
    cases hx : (items.filterMap Item.root?).getLast? with
    | none =>
      have : items.filterMap Item.root? = [] := List.getLast?_eq_none_iff.1 hx
      rw [this] at e
      simp only [List.getLast?_singleton] at e
      obtain ⟨h', e1, e2⟩ := e
      have : h' = h := by
        rw [← hex32_iff] at e2 hh
        rw [e2] at hh
        exact Option.some.inj hh
      subst this
      exact e1
    | some x =>
      rw [List.getLast?_cons, hx] at e
      exact e
  | hash long =>
    exact ⟨{ o with hashKey := true }, ⟨by simpa using hi, by simp [List.filterMap_cons, Item.operand?], by simpa [List.filterMap_cons, Item.operand?] using hl, by simp [List.filterMap_cons, Item.path?],
      by simp [List.filterMap_cons, Item.root?], by simp [Item.isHash]⟩, ⟨ha, by simpa [List.filterMap_cons, Item.operand?] using hb, c, by simpa [List.filterMap_cons, Item.path?] using d, by simpa [List.filterMap_cons, Item.root?] using e,
      by simpa [Item.isHash] using f⟩⟩
  | operand s =>
    exact ⟨{ o with args := o.args ++ [s] }, ⟨by simpa using hi, by simp [List.filterMap_cons, Item.operand?], by simpa [List.filterMap_cons, Item.operand?] using hl, by simp [List.filterMap_cons, Item.path?],
      by simp [List.filterMap_cons, Item.root?], by simp [Item.isHash]⟩, ⟨ha, by simpa [List.filterMap_cons, Item.operand?] using hb, c, by simpa [List.filterMap_cons, Item.path?] using d, by simpa [List.filterMap_cons, Item.root?] using e,
      by simpa [Item.isHash] using f⟩⟩

theorem Adds.nil {o o' : CliOpts} (ho : o.args.length ≤ 32) : Adds [] o o' ↔ o' = o := by
  constructor
  · rintro ⟨_, b, _, d, e, f⟩
    obtain ⟨p, r, h, a⟩ := o'
    obtain ⟨p1, r1, h1, a1⟩ := o
    simp at b d e f
    subst b d e f
    rfl
  · rintro rfl
    exact ⟨by simp, by simp, ho, by simp, by simp, by simp⟩

theorem opt_names : txt "--path" = [45, 45, 112, 97, 116, 104] ∧ txt "-p" = [45, 112] ∧ txt "--root" = [45, 45, 114, 111, 111, 116] ∧ txt "-r" = [45, 114] ∧
    txt "--hash" = [45, 45, 104, 97, 115, 104] ∧ txt "-H" = [45, 72] ∧ txt "--help" = [45, 45, 104, 101, 108, 112] ∧ txt "-h" = [45, 104] := by
  decide +kernel

theorem optLoop_step {i : Item} {o o1 : CliOpts} (h : Adds [i] o o1) (rest : List Bytes) : optLoop o (i.words ++ rest) = optLoop o1 rest := by
  obtain ⟨n1, n2, n3, n4, n5, n6, n7, n8⟩ := opt_names
  have ho : ∀ {a : CliOpts}, a.path = o1.path → a.root = o1.root → a.hashKey = o1.hashKey → a.args = o1.args → a = o1 := by
    intro a h1 h2 h3 h4
    cases a; cases o1
    simp at h1 h2 h3 h4
    subst h1 h2 h3 h4
    rfl
  obtain ⟨a, b, c, d, e, f⟩ := h
  have hi := a i (.head _)
  cases i with
  | path long p =>
    simp [List.filterMap_cons, Item.operand?] at b
    simp [List.filterMap_cons, Item.path?] at d
    simp [List.filterMap_cons, Item.root?] at e
    simp [Item.isHash] at f
    have hq : ({ o with path := some p } : CliOpts) = o1 := ho d.symm e.symm f.symm b.symm
    cases long <;> simp only [Item.words, List.cons_append, List.nil_append, if_true, Bool.false_eq_true, if_false] <;> rw [optLoop.eq_def] <;>
      simp only [n1, n2, true_or, or_true, if_true] <;> rw [hq]
  | root long s =>
    simp [List.filterMap_cons, Item.operand?] at b
    simp [List.filterMap_cons, Item.path?] at d
    simp [List.filterMap_cons, Item.root?] at e
    simp [Item.isHash] at f
    obtain ⟨h, e1, e2⟩ := e
    have e2 := hex32_iff.2 e2
    have hq : ({ o with root := some h } : CliOpts) = o1 := ho d.symm e1.symm f.symm b.symm
    cases long <;> simp only [Item.words, List.cons_append, List.nil_append, if_true, Bool.false_eq_true, if_false] <;> rw [optLoop.eq_def] <;>
      simp only [n1, n2, n3, n4] <;> simp only [e2] <;> simp <;> rw [hq]
  | hash long =>
    simp [List.filterMap_cons, Item.operand?] at b
    simp [List.filterMap_cons, Item.path?] at d
    simp [List.filterMap_cons, Item.root?] at e
    simp [Item.isHash] at f
    have hq : ({ o with hashKey := true } : CliOpts) = o1 := ho d.symm e.symm f.symm b.symm
    cases long <;> simp only [Item.words, List.cons_append, List.nil_append, if_true, Bool.false_eq_true, if_false] <;> rw [optLoop.eq_def] <;>
      simp only [n1, n2, n3, n4, n5, n6] <;> simp <;> rw [hq]
  | operand s =>
    simp [List.filterMap_cons, Item.operand?] at b
    simp [List.filterMap_cons, Item.path?] at d
    simp [List.filterMap_cons, Item.root?] at e
    simp [Item.isHash] at f
    have hd : ∀ s', s ≠ 45 :: s' := hi
    have hh : s.headD 0 ≠ 45 := by
      cases s with
      | nil => decide
      | cons x s => intro hx; simp at hx; subst hx; exact hd s rfl
    have hl : o.args.length ≠ 32 := by
      rw [b] at c; simp at c; omega
    simp only [Item.words, List.cons_append, List.nil_append]
    have hq : ({ o with args := o.args ++ [s] } : CliOpts) = o1 := ho d.symm e.symm f.symm b.symm
    rw [optLoop.eq_def]
    simp only [n1, n2, n3, n4, n5, n6, n7, n8, hd, or_self, if_false, hh, hl]
    rw [hq]

theorem optLoop_of : ∀ (items : List Item) {o o' : CliOpts}, o.args.length ≤ 32 → Adds items o o' → optLoop o (items.flatMap Item.words) = .inr o'
  | [], o, o', ho, h => by rw [(Adds.nil ho).1 h]; rfl
  | i :: items, o, o', ho, h => by
    obtain ⟨o1, h1, h2⟩ := h.uncons
    rw [List.flatMap_cons, optLoop_step h1]
    exact optLoop_of items h1.few h2

theorem optLoop_items : ∀ (n : Nat) {argv : List Bytes}, argv.length ≤ n → ∀ {o o' : CliOpts}, o.args.length ≤ 32 → optLoop o argv = .inr o' →
    ∃ items : List Item, argv = items.flatMap Item.words ∧ Adds items o o' := by
  intro n
  induction n with
  | zero =>
    intro argv hn o o' ho h
    have : argv = [] := List.eq_nil_of_length_eq_zero (by omega)
    subst this
    simp [optLoop] at h
    exact ⟨[], rfl, (Adds.nil ho).2 h.symm⟩
  | succ n ih =>
    intro argv hn o o' ho h
    cases argv with
    | nil =>
      simp [optLoop] at h
      exact ⟨[], rfl, (Adds.nil ho).2 h.symm⟩
    | cons a rest =>
      have fin : ∀ (i : Item) (o1 : CliOpts) (rest' : List Bytes), a :: rest = i.words ++ rest' → Adds [i] o o1 → rest'.length ≤ n →
          optLoop o1 rest' = .inr o' → ∃ items : List Item, a :: rest = items.flatMap Item.words ∧ Adds items o o' := by
        intro i o1 rest' e1 e2 e3 e4
        obtain ⟨items, e5, e6⟩ := ih e3 e2.few e4
        exact ⟨i :: items, by rw [e1, e5, List.flatMap_cons], e2.cons e6⟩
      rw [optLoop.eq_def] at h
      simp only at h
      split at h
      · next hp =>
        cases rest with
        | nil => cases h
        | cons p rest =>
          simp only [List.length_cons] at hn
          refine fin (.path (decide (a = txt "--path")) p) { o with path := some p } rest ?_ ?_ (by omega) h
          · by_cases e : a = txt "--path"
            · simp [Item.words, e]
            · have := hp.resolve_left e
              simp [Item.words, this, opt_names]
          · exact ⟨fun i hi => by rw [List.mem_singleton.1 hi]; trivial, by simp [List.filterMap_cons, Item.operand?], ho, by simp [List.filterMap_cons, Item.path?], by simp [List.filterMap_cons, Item.root?],
              by simp [Item.isHash]⟩
      · split at h
        · next hp =>
          cases rest with
          | nil => cases h
          | cons s rest =>
            simp only [List.length_cons] at hn
            simp only at h
            cases hx : hex32 s with
            | none => rw [hx] at h; cases h
            | some b =>
              rw [hx] at h
              have hb := hex32_iff.1 hx
              refine fin (.root (decide (a = txt "--root")) s) { o with root := some b } rest ?_ ?_ (by omega) h
              · by_cases e : a = txt "--root"
                · simp [Item.words, e]
                · have := hp.resolve_left e
                  simp [Item.words, this, opt_names]
              · exact ⟨fun i hi => by rw [List.mem_singleton.1 hi]; exact ⟨b, hb⟩, by simp [List.filterMap_cons, Item.operand?], ho, by simp [List.filterMap_cons, Item.path?],
                  by simpa [List.filterMap_cons, Item.root?] using hb, by simp [Item.isHash]⟩
        · split at h
          · next hp =>
            simp only [List.length_cons] at hn
            refine fin (.hash (decide (a = txt "--hash"))) { o with hashKey := true } rest ?_ ?_ (by omega) h
            · by_cases e : a = txt "--hash"
              · simp [Item.words, e]
              · have := hp.resolve_left e
                simp [Item.words, this, opt_names]
            · exact ⟨fun i hi => by rw [List.mem_singleton.1 hi]; trivial, by simp [List.filterMap_cons, Item.operand?], ho, by simp [List.filterMap_cons, Item.path?], by simp [List.filterMap_cons, Item.root?],
                by simp [Item.isHash]⟩
          · split at h
            · cases h
            · split at h
              · cases h
              · next hd =>
                split at h
                · cases h
                · next hl =>
                  simp only [List.length_cons] at hn
                  refine fin (.operand a) { o with args := o.args ++ [a] } rest rfl ?_ (by omega) h
                  refine ⟨fun i hi => ?_, by simp [List.filterMap_cons, Item.operand?], by simp; omega, by simp [List.filterMap_cons, Item.path?], by simp [List.filterMap_cons, Item.root?], by simp [Item.isHash]⟩
                  rw [List.mem_singleton.1 hi]
                  intro s' e
                  rw [e] at hd
                  exact hd rfl

theorem optLoop_iff (argv : List Bytes) {o o' : CliOpts} (ho : o.args.length ≤ 32) :
    optLoop o argv = .inr o' ↔ ∃ items : List Item, argv = items.flatMap Item.words ∧ Adds items o o' := by
  constructor
  · exact optLoop_items _ (Nat.le_refl _) ho
  · rintro ⟨items, rfl, h⟩
    exact optLoop_of items ho h

theorem optLoop_not_run (o : CliOpts) (argv : List Bytes) {path : Bytes} {root : Option B32} {cmd : Cmd} : optLoop o argv ≠ .inl (.run path root cmd) := by
  have key : ∀ (n : Nat) (argv : List Bytes), argv.length ≤ n → ∀ o, optLoop o argv ≠ .inl (.run path root cmd) := by
    intro n
    induction n with
    | zero =>
      intro argv hn o h
      have : argv = [] := List.eq_nil_of_length_eq_zero (by omega)
      subst this
      cases h
    | succ n ih =>
      intro argv hn o h
      cases argv with
      | nil => cases h
      | cons a rest =>
        simp only [List.length_cons] at hn
        rw [optLoop.eq_def] at h
        simp only at h
        split at h
        · cases rest with
          | nil => cases h
          | cons p rest => simp only [List.length_cons] at hn; exact ih _ (by omega) _ h
        split at h
        · cases rest with
          | nil => cases h
          | cons p rest =>
            simp only [List.length_cons] at hn
            simp only at h
            split at h
            · cases h
            · exact ih _ (by omega) _ h
        split at h
        · exact ih _ (by omega) _ h
        split at h
        · cases h
        split at h
        · cases h
        split at h
        · cases h
        · exact ih _ (by omega) _ h
  exact key _ _ (Nat.le_refl _) _

theorem withKey_iff {H : HashFn} {o : CliOpts} {path0 : Bytes} {args : List Bytes} {mk : B32 → List Bytes → Bytes ⊕ Cmd} {path : Bytes} {root : Option B32}
    {cmd : Cmd} : withKey H o path0 args mk = .run path root cmd ↔
      path = path0 ∧ root = o.root ∧ ∃ s k more, args = s :: more ∧ IsKey H o.hashKey s k ∧ mk k more = .inr cmd := by
  unfold withKey
  constructor
  · intro h
    split at h
    · cases h
    · next a more =>
      split at h
      · cases h
      · next k hk =>
        split at h
        · cases h
        · next c hc =>
          injection h with h1 h2 h3
          subst h1 h2 h3
          exact ⟨rfl, rfl, a, k, more, rfl, keyArg_iff.1 hk, hc⟩
  · rintro ⟨rfl, rfl, s, k, more, rfl, hk, hc⟩
    simp only [keyArg_iff.2 hk, hc]

theorem mkInsert_iff {k : B32} {args : List Bytes} {cmd : Cmd} :
    mkInsert k args = .inr cmd ↔ ∃ t v more, args = t :: more ∧ IsHex t v ∧ v.length ≤ 1024 ∧ cmd = .insert k v := by
  unfold mkInsert
  constructor
  · intro h
    split at h
    · cases h
    · next t more =>
      split at h
      · cases h
      · next v hv =>
        cases h
        have := (C52_base16_decode 1024 t v).1 hv
        exact ⟨t, v, more, rfl, (isHex_iff _ _).2 this.1, this.2, rfl⟩
  · rintro ⟨t, v, more, rfl, hv, hl, rfl⟩
    simp only [(C52_base16_decode 1024 t v).2 ⟨(isHex_iff _ _).1 hv, hl⟩]

theorem mkVerify_iff {k : B32} {args : List Bytes} {cmd : Cmd} :
    mkVerify k args = .inr cmd ↔ ∃ t p more, args = t :: more ∧ IsHex t p ∧ cmd = .verify k p := by
  unfold mkVerify
  constructor
  · intro h
    split at h
    · cases h
    · next t more =>
      split at h
      · cases h
      · next v hv =>
        cases h
        have := (C52_base16_decode _ t v).1 hv
        exact ⟨t, v, more, rfl, (isHex_iff _ _).2 this.1, rfl⟩
  · rintro ⟨t, v, more, rfl, hv, rfl⟩
    have hv := (isHex_iff _ _).1 hv
    have hl := hexBytes_length hv
    simp only [(C52_base16_decode (t.length / 2) t v).2 ⟨hv, by omega⟩]

theorem action_names : [txt "create", txt "destroy", txt "info", txt "root", txt "get", txt "insert", txt "remove", txt "list", txt "prove", txt "verify"].Nodup := by
  decide +kernel

/-- The second half of `urkel_options_init`. -/
theorem args_iff {H : HashFn} {o : CliOpts} {path0 path : Bytes} {root : Option B32} {cmd : Cmd} :
    (match o.args with
    | [] => Parsed.fail usageText []
    | name :: args =>
      if name = txt "create" then .run path0 o.root .create
      else if name = txt "destroy" then .run path0 o.root .destroy
      else if name = txt "info" then .run path0 o.root .info
      else if name = txt "root" then .run path0 o.root .root
      else if name = txt "get" then withKey H o path0 args fun k _ => .inr (.get k)
      else if name = txt "insert" then withKey H o path0 args mkInsert
      else if name = txt "remove" then withKey H o path0 args fun k _ => .inr (.remove k)
      else if name = txt "list" then .run path0 o.root .list
      else if name = txt "prove" then withKey H o path0 args fun k _ => .inr (.prove k)
      else if name = txt "verify" then withKey H o path0 args mkVerify
      else .fail [] (txt "Invalid action.\n")) = .run path root cmd ↔ path = path0 ∧ root = o.root ∧ Means H o.hashKey o.args cmd := by
  constructor
  · intro h
    split at h
    · cases h
    · next name args ha =>
      rw [ha]
      split at h
      · next hn => injection h with h1 h2 h3; subst hn h1 h2 h3; exact ⟨rfl, rfl, .create _⟩
      split at h
      · next hn => injection h with h1 h2 h3; subst hn h1 h2 h3; exact ⟨rfl, rfl, .destroy _⟩
      split at h
      · next hn => injection h with h1 h2 h3; subst hn h1 h2 h3; exact ⟨rfl, rfl, .info _⟩
      split at h
      · next hn => injection h with h1 h2 h3; subst hn h1 h2 h3; exact ⟨rfl, rfl, .root _⟩
      split at h
      · next hn =>
        obtain ⟨h1, h2, s, k, more, rfl, hk, hc⟩ := withKey_iff.1 h
        subst hn; cases hc
        exact ⟨h1, h2, .get _ hk⟩
      split at h
      · next hn =>
        obtain ⟨h1, h2, s, k, more, rfl, hk, hc⟩ := withKey_iff.1 h
        obtain ⟨t, v, more, rfl, hv, hl, rfl⟩ := mkInsert_iff.1 hc
        subst hn
        exact ⟨h1, h2, .insert _ hk hv hl⟩
      split at h
      · next hn =>
        obtain ⟨h1, h2, s, k, more, rfl, hk, hc⟩ := withKey_iff.1 h
        subst hn; cases hc
        exact ⟨h1, h2, .remove _ hk⟩
      split at h
      · next hn => injection h with h1 h2 h3; subst hn h1 h2 h3; exact ⟨rfl, rfl, .list _⟩
      split at h
      · next hn =>
        obtain ⟨h1, h2, s, k, more, rfl, hk, hc⟩ := withKey_iff.1 h
        subst hn; cases hc
        exact ⟨h1, h2, .prove _ hk⟩
      split at h
      · next hn =>
        obtain ⟨h1, h2, s, k, more, rfl, hk, hc⟩ := withKey_iff.1 h
        obtain ⟨t, v, more, rfl, hv, rfl⟩ := mkVerify_iff.1 hc
        subst hn
        exact ⟨h1, h2, .verify _ hk hv⟩
      · cases h
  · rintro ⟨rfl, rfl, hm⟩
    have hn := action_names
    simp only [List.nodup_cons, List.mem_cons, List.not_mem_nil, or_false, not_or, not_false_eq_true, and_true, List.nodup_nil] at hn
    obtain ⟨⟨a1, a2, a3, a4, a5, a6, a7, a8, a9⟩, ⟨b1, b2, b3, b4, b5, b6, b7, b8⟩, ⟨c1, c2, c3, c4, c5, c6, c7⟩, ⟨d1, d2, d3, d4, d5, d6⟩,
      ⟨e1, e2, e3, e4, e5⟩, ⟨f1, f2, f3, f4⟩, ⟨g1, g2, g3⟩, ⟨h1, h2⟩, i1⟩ := hn
    generalize ha : o.args = args at hm ⊢
    cases hm with
    | create => simp only [if_true]
    | destroy => simp only [Ne.symm a1, if_false, if_true]
    | info => simp only [Ne.symm a2, Ne.symm b1, if_false, if_true]
    | root => simp only [Ne.symm a3, Ne.symm b2, Ne.symm c1, if_false, if_true]
    | get more hk =>
      simp only [Ne.symm a4, Ne.symm b3, Ne.symm c2, Ne.symm d1, if_false, if_true]
      exact withKey_iff.2 ⟨rfl, rfl, _, _, _, rfl, hk, rfl⟩
    | insert more hk hv hl =>
      simp only [Ne.symm a5, Ne.symm b4, Ne.symm c3, Ne.symm d2, Ne.symm e1, if_false, if_true]
      exact withKey_iff.2 ⟨rfl, rfl, _, _, _, rfl, hk, mkInsert_iff.2 ⟨_, _, _, rfl, hv, hl, rfl⟩⟩
    | remove more hk =>
      simp only [Ne.symm a6, Ne.symm b5, Ne.symm c4, Ne.symm d3, Ne.symm e2, Ne.symm f1, if_false, if_true]
      exact withKey_iff.2 ⟨rfl, rfl, _, _, _, rfl, hk, rfl⟩
    | list => simp only [Ne.symm a7, Ne.symm b6, Ne.symm c5, Ne.symm d4, Ne.symm e3, Ne.symm f2, Ne.symm g1, if_false, if_true]
    | prove more hk =>
      simp only [Ne.symm a8, Ne.symm b7, Ne.symm c6, Ne.symm d5, Ne.symm e4, Ne.symm f3, Ne.symm g2, Ne.symm h1, if_false, if_true]
      exact withKey_iff.2 ⟨rfl, rfl, _, _, _, rfl, hk, rfl⟩
    | verify more hk hv =>
      simp only [Ne.symm a9, Ne.symm b8, Ne.symm c7, Ne.symm d6, Ne.symm e5, Ne.symm f4, Ne.symm g3, Ne.symm h2, Ne.symm i1, if_false, if_true]
      exact withKey_iff.2 ⟨rfl, rfl, _, _, _, rfl, hk, mkVerify_iff.2 ⟨_, _, _, rfl, hv, rfl⟩⟩

/-- C61: the tool goes on to run a command exactly when the command line means it
(Spec/Cli.lean): options may stand before, between and after the operands, keys and roots
are 64 hexadecimal digits (or, with -H, keys are any string), there are at most 32
operands. -/
theorem C61_line (H : HashFn) (env : Option Bytes) (argv : List Bytes) (path : Bytes) (root : Option B32) (cmd : Cmd) :
    cliParse H env argv = .run path root cmd ↔ Line H env argv path root cmd := by
  unfold cliParse Line
  constructor
  · intro h
    split at h
    · next p hp =>
      subst h
      exact absurd hp (optLoop_not_run _ _)
    · next o ho =>
      obtain ⟨items, e1, e2⟩ := (optLoop_iff argv (by simp)).1 ho
      obtain ⟨h1, h2, h3⟩ := args_iff.1 h
      have ea := e2.args
      have eh := e2.hash
      simp only [List.nil_append] at ea
      simp only [Bool.or_false] at eh
      have ep := e2.path
      have er := e2.root
      have ef := e2.few
      rw [ea, eh] at h3
      rw [ea] at ef
      refine ⟨items, e1, e2.ok, ef, ?_, ?_, h3⟩
      · rw [h1, ep]
        cases (items.filterMap Item.path?).getLast? <;> cases env <;> rfl
      · rw [h2]
        exact er
  · rintro ⟨items, e1, e2, e3, e4, e5, e6⟩
    have : Adds items ⟨none, none, false, []⟩ ⟨(items.filterMap Item.path?).getLast?, root, items.any Item.isHash, items.filterMap Item.operand?⟩ :=
      ⟨e2, by simp, e3, by simp, e5, by simp⟩
    rw [(optLoop_iff argv (by simp)).2 ⟨items, e1, this⟩]
    refine args_iff.2 ⟨?_, rfl, e6⟩
    rw [e4]
    cases (items.filterMap Item.path?).getLast? <;> cases env <;> rfl

theorem optLoop_help : ∀ (n : Nat) (argv : List Bytes), argv.length ≤ n → ∀ o, optLoop o argv = .inl .help → txt "-h" ∈ argv ∨ txt "--help" ∈ argv := by
  intro n
  induction n with
  | zero =>
    intro argv hn o h
    have : argv = [] := List.eq_nil_of_length_eq_zero (by omega)
    subst this
    cases h
  | succ n ih =>
    intro argv hn o h
    have up : ∀ {a : Bytes} {rest : List Bytes}, (txt "-h" ∈ rest ∨ txt "--help" ∈ rest) → txt "-h" ∈ a :: rest ∨ txt "--help" ∈ a :: rest :=
      fun h => h.imp (List.mem_cons_of_mem _) (List.mem_cons_of_mem _)
    cases argv with
    | nil => cases h
    | cons a rest =>
      simp only [List.length_cons] at hn
      rw [optLoop.eq_def] at h
      simp only at h
      split at h
      · cases rest with
        | nil => cases h
        | cons p rest => simp only [List.length_cons] at hn; exact up (up (ih _ (by omega) _ h))
      split at h
      · cases rest with
        | nil => cases h
        | cons p rest =>
          simp only [List.length_cons] at hn
          simp only at h
          split at h
          · cases h
          · exact up (up (ih _ (by omega) _ h))
      split at h
      · exact up (ih _ (by omega) _ h)
      split at h
      · next hh =>
        rcases hh with e | e
        · rw [e]; exact Or.inr (.head _)
        · rw [e]; exact Or.inl (.head _)
      split at h
      · cases h
      split at h
      · cases h
      · exact up (ih _ (by omega) _ h)

theorem withKey_not_help {H : HashFn} {o : CliOpts} {path0 : Bytes} {args : List Bytes} {mk : B32 → List Bytes → Bytes ⊕ Cmd} : withKey H o path0 args mk ≠ .help := by
  intro h
  unfold withKey at h
  split at h
  · cases h
  · split at h
    · cases h
    · split at h <;> cases h

/-- C61: a command line that means no command does nothing: no database is opened, created
or changed, and the exit status is 1, unless help was asked for. -/
theorem C61_rejects (E : Env) (fuel : Nat) (rand : B32) (destroy : Dir → Res (Dir × Bool)) (fs : Bytes → Dir) (env : Option Bytes) (argv : List Bytes)
    (h : ∀ path root cmd, ¬ Line E.H env argv path root cmd) :
    ∃ e, cli E fuel rand destroy fs env argv = .ok (fs, e) ∧ (e.code = 1 ∨ (e = ⟨usageText, [], 0⟩ ∧ (txt "-h" ∈ argv ∨ txt "--help" ∈ argv))) := by
  unfold cli
  generalize hp : cliParse E.H env argv = p
  cases p with
  | help =>
    refine ⟨_, rfl, Or.inr ⟨rfl, ?_⟩⟩
    unfold cliParse at hp
    split at hp
    · next q hq => subst hp; exact optLoop_help _ _ (Nat.le_refl _) _ hq
    · exfalso
      simp only at hp
      split at hp
      · cases hp
      · repeat' (first | (split at hp) | cases hp | exact withKey_not_help hp)
  | fail out err => exact ⟨_, rfl, Or.inl rfl⟩
  | run path root cmd => exact (h _ _ _ ((C61_line _ _ _ _ _ _).1 hp)).elim

/-- C61: a command line that means a command runs it on the database at the path, and no
other database is touched. -/
theorem C61_runs (E : Env) (fuel : Nat) (rand : B32) (destroy : Dir → Res (Dir × Bool)) (fs : Bytes → Dir) {env : Option Bytes} {argv : List Bytes}
    {path : Bytes} {root : Option B32} {cmd : Cmd} (h : Line E.H env argv path root cmd) {d : Dir} {e : Exit}
    (hc : cliMain E fuel rand destroy (fs path) root cmd = .ok (d, e)) :
    ∃ fs', cli E fuel rand destroy fs env argv = .ok (fs', e) ∧ fs' path = d ∧ ∀ p, p ≠ path → fs' p = fs p := by
  refine ⟨fun p => if p = path then d else fs p, ?_, if_pos rfl, fun p hp => if_neg hp⟩
  unfold cli
  rw [(C61_line _ _ _ _ _ _).2 h]
  simp only [hc, Res.bind_ok, Res.pure_eq]

/-- An option between the operands, and the path from the environment. -/
example (H : HashFn) : Line H (some (txt "db")) [txt "insert", txt "-H", txt "foo", txt "DEad"] (txt "db") none (.insert (H (txt "foo")) [0xde, 0xad]) := by
  refine ⟨[.operand (txt "insert"), .hash false, .operand (txt "foo"), .operand (txt "DEad")], rfl, ?_, by decide, rfl, rfl, ?_⟩
  · intro i hi
    simp only [List.mem_cons, List.not_mem_nil, or_false] at hi
    have h1 : txt "insert" = [105, 110, 115, 101, 114, 116] := by decide +kernel
    have h2 : txt "foo" = [102, 111, 111] := by decide +kernel
    have h3 : txt "DEad" = [68, 69, 97, 100] := by decide +kernel
    rcases hi with rfl | rfl | rfl | rfl
    · intro s' e; rw [h1] at e; cases e
    · trivial
    · intro s' e; rw [h2] at e; cases e
    · intro s' e; rw [h3] at e; cases e
  · exact .insert [] rfl ((isHex_iff _ _).2 (by decide +kernel)) (by decide)

/-- Nothing is meant by an unknown action. -/
example (H : HashFn) : ∀ path root cmd, ¬ Line H none [txt "frob"] path root cmd := by
  intro path root cmd h
  have h1 := (C61_line _ _ _ _ _ _).2 h
  have hn : ∀ x ∈ [txt "--path", txt "-p", txt "--root", txt "-r", txt "--hash", txt "-H", txt "--help", txt "-h", txt "create", txt "destroy", txt "info",
      txt "root", txt "get", txt "insert", txt "remove", txt "list", txt "prove", txt "verify"], txt "frob" ≠ x := by decide +kernel
  have hd : (txt "frob").headD 0 ≠ 45 := by decide +kernel
  simp only [List.forall_mem_cons, List.not_mem_nil, false_implies, implies_true, and_true] at hn
  obtain ⟨a1, a2, a3, a4, a5, a6, a7, a8, a9, b1, b2, b3, b4, b5, b6, b7, b8, b9⟩ := hn
  rw [cliParse, optLoop.eq_def] at h1
  simp only [a1, a2, a3, a4, a5, a6, a7, a8, or_self, if_false, hd, List.length_nil, OfNat.zero_ne_ofNat] at h1
  rw [optLoop.eq_def] at h1
  simp only [List.nil_append, a9, b1, b2, b3, b4, b5, b6, b7, b8, b9, if_false] at h1
  cases h1

end Urkel
