import Verif.Options.Model
import Verif.Getopt.Props

/-!
# Properties of the shell options (C47, C53, C68, C69)
-/

namespace Ksh.Options

open Ksh.Getopt

/-! ## The loop and the options that ksh_getopt finds -/

/-- The options of a list, one after the other -/
def fold (me : Bool) (what : Nat) (g : G) : List Ev → S → R
  | [], s => .done s g
  | v :: vs, s =>
    match handle me what v.ret v.plus v.optarg s with
    | .inl s' => fold me what g vs s'
    | .inr r => r

theorem loop_run (me : Bool) (what : Nat) (argv : List Arg) : ∀ (n : Nat) (g : G) (s : S) (evs : List Ev) (g' : G),
    run n true (opts what) argv g = some (evs, g') → loop me what argv n g s = some (fold me what g' evs s)
  | 0, _, _, _, _, h => by simp [run] at h
  | n + 1, g, s, evs, g', h => by
    simp only [run] at h
    simp only [loop]
    cases hg : getopt true (opts what) argv { g with optarg := none } with
    | none => rw [hg] at h; simp at h
    | some r =>
      obtain ⟨c, m, g1⟩ := r
      rw [hg] at h
      cases c with
      | none =>
        simp only [Option.some.injEq, Prod.mk.injEq] at h
        obtain ⟨rfl, rfl⟩ := h
        rfl
      | some c =>
        simp only [Option.map_eq_some_iff] at h
        obtain ⟨⟨es, g2⟩, h1, h2⟩ := h
        simp only [Prod.mk.injEq] at h2
        obtain ⟨rfl, rfl⟩ := h2
        simp only [fold]
        cases handle me what c g1.plus g1.optarg s with
        | inl s' => exact loop_run me what argv n g1 s' es g2 h1
        | inr r => rfl

/-- The loop ends, without an access out of bounds; it treats the options that the specification
of ksh_getopt (C22) lists. -/
theorem loop_total (me : Bool) (what : Nat) (name : Arg) (args : List Arg) (s : S) :
    ∃ g', loop me what (name :: args) (((name :: args).map fun a => a.length + 1).sum + 1) reset s =
        some (fold me what g' (scan true (opts what) false [] args).1 s) ∧
      (name :: args).drop g'.optind = (scan true (opts what) false [] args).2 := by
  have hat : At (name :: args) reset [] args := ⟨by simp [reset], by simp [reset], by simp [reset]⟩
  obtain ⟨g', h⟩ := run_spec true (opts what) (name :: args) _ reset [] args (Nat.le_refl _) hat
  obtain ⟨h1, h2⟩ := h (((name :: args).map fun a => a.length + 1).sum + 1) (by simp [size]; omega)
  exact ⟨g', loop_run me what _ _ _ _ _ _ h1, h2⟩

/-- `parse_args` always ends. -/
theorem parse_total (me : Bool) (what : Nat) (name : Arg) (args : List Arg) (fl : Flags) : ∃ o, parseArgs me what (name :: args) fl = some o := by
  simp only [parseArgs]
  obtain ⟨g', h, _⟩ := loop_total me what name args { flags := if what = OF_CMDLINE then upd fl .login (if loginName ((name :: args).headD []) then 1 else 0) else fl }
  rw [h]
  exact ⟨_, rfl⟩

/-! ## What one option changes -/

/-- Spec: the options whose value an option may change -/
def touches (f : F) : List F :=
  match f with
  | .vi => [.vi, .emacs, .gmacs]
  | .emacs => [.vi, .emacs, .gmacs]
  | .gmacs => [.vi, .emacs, .gmacs]
  | .posix => [.posix, .brace]
  | .talking => [.talking, .talkingI]
  | f => [f]

/-- An option changes nothing but itself, the other editing modes, `braceexpand` for `posix`, and
the internal flag for `interactive`. -/
theorem change_frame (me : Bool) (f : F) (what v : Nat) (fl : Flags) (g : F) (h : g ∉ touches f) : changeFlag me f what v fl g = fl g := by
  cases f <;> simp only [touches, List.mem_cons, List.not_mem_nil, or_false, not_or] at h <;>
    simp [changeFlag] <;> grind [upd]

/-- An option gets its value. -/
theorem change_self (me : Bool) (f : F) (what v : Nat) (fl : Flags) : changeFlag me f what v fl f = v := by
  cases f <;> simp [changeFlag] <;> grind [upd]

/-- Turning `posix` on turns brace expansion off; turning it off does not turn it on. -/
theorem posix_brace (me : Bool) (what v : Nat) (fl : Flags) :
    changeFlag me .posix what v fl .brace = if v ≠ 0 then 0 else fl .brace := by
  simp [changeFlag]
  grind [upd]

/-- Turning an editing mode on turns the others off; turning it off leaves them. -/
theorem edit_change (me : Bool) (f g : F) (what v : Nat) (fl : Flags) (hf : f = .vi ∨ f = .emacs ∨ f = .gmacs)
    (hg : g = .vi ∨ g = .emacs ∨ g = .gmacs) (hne : g ≠ f) : changeFlag me f what v fl g = if v ≠ 0 then 0 else fl g := by
  rcases hf with rfl | rfl | rfl <;> rcases hg with rfl | rfl | rfl <;> simp [changeFlag] at hne ⊢ <;> grind [upd]

/-! ## Only one editing mode (C47) -/

/-- Spec: at most one of the options is on -/
def Excl (fl : Flags) : Prop :=
  ∀ f g, (f = .vi ∨ f = .emacs ∨ f = .gmacs) → (g = .vi ∨ g = .emacs ∨ g = .gmacs) → fl f ≠ 0 → fl g ≠ 0 → f = g

theorem excl_change {me : Bool} {f : F} {what v : Nat} {fl : Flags} (h : Excl fl) : Excl (changeFlag me f what v fl) := by
  intro a c ha hc h1 h2
  by_cases hf : f = .vi ∨ f = .emacs ∨ f = .gmacs
  · by_cases hv : v ≠ 0
    · by_cases ea : a = f
      · by_cases ec : c = f
        · rw [ea, ec]
        · rw [edit_change me f c what v fl hf hc ec, if_pos hv] at h2; exact absurd rfl h2
      · rw [edit_change me f a what v fl hf ha ea, if_pos hv] at h1; exact absurd rfl h1
    · have hv : v = 0 := by simpa using hv
      subst hv
      by_cases ea : a = f
      · subst ea; rw [change_self] at h1; exact absurd rfl h1
      · by_cases ec : c = f
        · subst ec; rw [change_self] at h2; exact absurd rfl h2
        · rw [edit_change me f a what 0 fl hf ha ea] at h1
          rw [edit_change me f c what 0 fl hf hc ec] at h2
          simp only [ne_eq, not_true_eq_false, if_false] at h1 h2
          exact h a c ha hc h1 h2
  · have out : ∀ x, (x = .vi ∨ x = .emacs ∨ x = .gmacs) → x ∉ touches f := by
      intro x hx
      cases f <;> simp [touches] at hf ⊢ <;> rcases hx with rfl | rfl | rfl <;> simp
    rw [change_frame me f what v fl a (out a ha)] at h1
    rw [change_frame me f what v fl c (out c hc)] at h2
    exact h a c ha hc h1 h2

theorem excl_upd {f : F} {v : Nat} {fl : Flags} (h : Excl fl) (hf : f ≠ .vi ∧ f ≠ .emacs ∧ f ≠ .gmacs) : Excl (upd fl f v) := by
  intro a c ha hc h1 h2
  have na : a ≠ f := by rcases ha with rfl | rfl | rfl <;> grind
  have nc : c ≠ f := by rcases hc with rfl | rfl | rfl <;> grind
  simp only [upd, na, nc, if_false] at h1 h2
  exact h a c ha hc h1 h2

def R.s : R → S
  | .done s _ => s
  | .bad s => s
  | .internal s => s

def sOf : S ⊕ R → S
  | .inl s => s
  | .inr r => r.s

theorem handle_keeps {P : Flags → Prop} {me : Bool} {what : Nat}
    (hc : ∀ x ∈ table, x.flags &&& what ≠ 0 → ∀ v fl, P fl → P (changeFlag me x.f what v fl)) (c : Char) (plus : Bool) (oa : Option Arg) (s : S)
    (h : P s.flags) : P (sOf (handle me what c plus oa s)).flags := by
  simp only [handle]
  by_cases hA : c = 'A'
  · rw [if_pos hA]; exact h
  rw [if_neg hA]
  by_cases ho : c = 'o'
  · rw [if_pos ho]
    cases oa with
    | none => exact h
    | some n =>
      simp only
      cases ho : option n with
      | none => exact h
      | some x =>
        simp only
        generalize (if plus = true then 0 else 1) = set
        split
        · exact h
        · split
          · rename_i hx
            exact hc x (List.mem_of_find?_eq_some ho) hx _ _ h
          · exact h
  rw [if_neg ho]
  split
  · exact h
  split
  · exact h
  cases ht : table.find? fun x => x.c == some c && x.flags &&& what ≠ 0 with
  | none => exact h
  | some x =>
    have := List.find?_some ht
    simp only [Bool.and_eq_true, decide_eq_true_eq] at this
    exact hc x (List.mem_of_find?_eq_some ht) this.2 _ _ h

/-- What a property of the flags needs to hold through a list of options -/
theorem fold_keeps {P : Flags → Prop} {me : Bool} {what : Nat}
    (hc : ∀ x ∈ table, x.flags &&& what ≠ 0 → ∀ v fl, P fl → P (changeFlag me x.f what v fl)) (g : G) : ∀ (vs : List Ev) (s : S), P s.flags →
      P (fold me what g vs s).s.flags
  | [], s, h => h
  | v :: vs, s, h => by
    have k := handle_keeps hc v.ret v.plus v.optarg s h
    simp only [fold]
    cases hh : handle me what v.ret v.plus v.optarg s with
    | inl s' =>
      rw [hh] at k
      exact fold_keeps hc g vs s' k
    | inr r =>
      rw [hh] at k
      exact k

/-- the same for parse_args -/
theorem parse_keeps {P : Flags → Prop} {me : Bool} {what : Nat}
    (hc : ∀ x ∈ table, x.flags &&& what ≠ 0 → ∀ v fl, P fl → P (changeFlag me x.f what v fl))
    (hl : what = OF_CMDLINE → ∀ v fl, P fl → P (upd fl .login v))
    (hv : ∀ fl, P fl → P (upd (upd fl .verbose 0) .xtrace 0))
    {name : Arg} {args : List Arg} {fl : Flags} {o : Out} (h : parseArgs me what (name :: args) fl = some o) (hp : P fl) : P o.flags := by
  simp only [parseArgs] at h
  generalize hq : (if what = OF_CMDLINE then upd fl .login (if loginName ((name :: args).headD []) then 1 else 0) else fl) = fl0 at h
  have hp0 : P fl0 := by
    rw [← hq]
    split
    · exact hl ‹_› _ _ hp
    · exact hp
  obtain ⟨g', h1, _⟩ := loop_total me what name args { flags := fl0 }
  rw [h1] at h
  simp only [Option.map_some, Option.some.injEq] at h
  have k := fold_keeps hc g' (scan true (opts what) false [] args).1 { flags := fl0 } hp0
  generalize fold me what g' (scan true (opts what) false [] args).1 { flags := fl0 } = r at h k
  cases r with
  | bad s => subst h; exact k
  | internal s => subst h; exact k
  | done s g =>
    simp only at h k
    have k2 : P (if (!g.minusminus && ((name :: args)[g.optind]? == some ['-'] || (name :: args)[g.optind]? == some ['+'])) && (name :: args)[g.optind]? == some ['-'] && s.flags .posix = 0 then upd (upd s.flags .verbose 0) .xtrace 0 else s.flags) := by
      split
      · exact hv _ k
      · exact k
    cases ha : s.array with
    | none => rw [ha] at h; subst h; exact k2
    | some x =>
      obtain ⟨b, a⟩ := x
      rw [ha] at h
      simp only at h
      split at h <;> (subst h; exact k2)

/-- What can happen to the flags: `set`, the command line, `EDITOR` and `VISUAL`,
`POSIXLY_CORRECT` (var.c:996), and the assignments in the shell, none of which is to an editing mode -/
inductive Event
  | set (name : Arg) (args : List Arg)
  | cmdline (name : Arg) (args : List Arg)
  | editor (v : Arg)
  | posixly
  | assign (f : F) (v : Nat) (h : f ≠ .vi ∧ f ≠ .emacs ∧ f ≠ .gmacs)

def flagsOf (o : Option Out) (fl : Flags) : Flags := (o.map (·.flags)).getD fl

def occur (me : Bool) (fl : Flags) : Event → Flags
  | .set n as => flagsOf (parseArgs me OF_SET (n :: as) fl) fl
  | .cmdline n as => flagsOf (parseArgs me OF_CMDLINE (n :: as) fl) fl
  | .editor v => setEditmode me v fl
  | .posixly => changeFlag me .posix OF_SPECIAL 1 fl
  | .assign f v _ => upd fl f v

theorem flagsOf_keeps {P : Flags → Prop} {o : Option Out} {fl : Flags} (h : ∀ x, o = some x → P x.flags) (h2 : P fl) : P (flagsOf o fl) := by
  cases o with
  | none => exact h2
  | some x => exact h x rfl

/-- **C47**: whatever happens, at most one editing mode is on. -/
theorem edit_modes_exclusive (me sh : Bool) (evs : List Event) : Excl (evs.foldl (occur me) (initial sh)) := by
  have h0 : Excl (initial sh) := by
    simp only [initial]
    refine excl_upd (excl_change (excl_upd (excl_upd (excl_upd ?_ (by simp)) (by simp)) (by simp))) (by simp)
    intro a c _ _ h1
    exact absurd rfl h1
  have step : ∀ fl v, Excl fl → Excl (occur me fl v) := by
    intro fl v h
    have hpa : ∀ what n as, Excl (flagsOf (parseArgs me what (n :: as) fl) fl) := fun what n as =>
      flagsOf_keeps (fun x hx => parse_keeps (P := Excl) (fun _ _ _ _ _ h => excl_change h) (fun _ _ _ h => excl_upd h (by simp))
        (fun _ h => excl_upd (excl_upd h (by simp)) (by simp)) hx h) h
    cases v with
    | set n as => exact hpa _ n as
    | cmdline n as => exact hpa _ n as
    | editor v =>
      simp only [occur, setEditmode]
      split
      · exact excl_change h
      · split
        · exact excl_change h
        · split
          · exact excl_change h
          · exact h
    | posixly => exact excl_change (me := me) (f := .posix) (what := OF_SPECIAL) (v := 1) h
    | assign f v hf => exact excl_upd h hf
  suffices g : ∀ fl, Excl fl → Excl (evs.foldl (occur me) fl) from g _ h0
  induction evs with
  | nil => exact fun _ h => h
  | cons v vs ih => exact fun fl h => ih _ (step fl v h)

/-! ## What `set` cannot change (C53) -/

/-- **C53**: no `set` command changes the options that are for the command line only, among them
`restricted`. -/
theorem set_keeps_cmdline (me : Bool) {name : Arg} {args : List Arg} {fl : Flags} {o : Out}
    (h : parseArgs me OF_SET (name :: args) fl = some o) (f : F)
    (hf : f = .restricted ∨ f = .talking ∨ f = .login ∨ f = .stdin ∨ f = .command ∨ f = .talkingI) : o.flags f = fl f := by
  refine parse_keeps (P := fun x => x f = fl f) ?_ (fun h => absurd h (by decide)) ?_ h rfl
  · intro x hx hw v fl' h'
    rw [← h']
    refine change_frame me x.f OF_SET v fl' f ?_
    have key : ∀ x ∈ table, x.flags &&& OF_SET ≠ 0 → ∀ f ∈ [F.restricted, .talking, .login, .stdin, .command, .talkingI], f ∉ touches x.f := by decide +kernel
    exact key x hx hw f (by rcases hf with rfl | rfl | rfl | rfl | rfl | rfl <;> simp)
  · intro fl' h'
    rw [← h']
    rcases hf with rfl | rfl | rfl | rfl | rfl | rfl <;> simp [upd]

/-! ## `$-` (C47) -/

/-- no two options have the same letter -/
theorem letters_unique : ∀ x ∈ table, ∀ y ∈ table, x.c ≠ none → x.c = y.c → x = y := by decide +kernel

/-- **C47**: a letter is in `$-` if and only if the option with the letter is on. -/
theorem dollar_minus (fl : Flags) (c : Char) : c ∈ getoptions fl ↔ ∃ x ∈ table, x.c = some c ∧ fl x.f ≠ 0 := by
  simp only [getoptions, List.mem_filterMap]
  constructor
  · rintro ⟨x, hx, h⟩
    split at h
    · exact ⟨x, hx, h, ‹_›⟩
    · simp at h
  · rintro ⟨x, hx, h, hf⟩
    exact ⟨x, hx, by rw [if_pos hf]; exact h⟩

/-- **C47**: no letter occurs twice, they are in the order of the table, and the buffer of
`FNFLAGS + 1` bytes holds them. -/
theorem dollar_minus_once (fl : Flags) : (getoptions fl).Nodup ∧ (getoptions fl).Sublist (table.filterMap (·.c)) ∧ (getoptions fl).length < 37 + 1 := by
  have hs : (getoptions fl).Sublist (table.filterMap (·.c)) := by
    simp only [getoptions]
    generalize table = t
    induction t with
    | nil => exact List.Sublist.refl _
    | cons x t ih =>
      simp only [List.filterMap_cons]
      by_cases h : fl x.f ≠ 0
      · simp only [h, if_true, ne_eq, not_false_eq_true]
        cases x.c with
        | none => exact ih
        | some c => exact ih.cons_cons c
      · simp only [h, if_false]
        cases x.c with
        | none => exact ih
        | some c => exact ih.cons c
  have hn : (table.filterMap (·.c)).Nodup := by decide +kernel
  have hl : (table.filterMap (·.c)).length = 19 := by decide +kernel
  exact ⟨hs.nodup hn, hs, by have := hs.length_le; omega⟩

/-! ## ksh_getopt and the table -/

theorem getopt_ret {options : List Char} {argv : List Arg} {g g' : G} {c : Char} {m : Option Msg} (hs : options.head? ≠ some ':')
    (h : getopt true options argv g = some (some c, m, g')) :
    c = '?' ∨ (c ∈ options ∧ c ≠ ':' ∧ c ≠ ';') := by
  have hm : ∀ (o : List Char) (c : Char), strchr o c ≠ none → c ∈ o := by
    intro o c
    induction o with
    | nil => simp [strchr]
    | cons d r ih =>
      simp only [strchr]
      split
      · rename_i e; subst e; simp
      · intro h; exact List.mem_cons_of_mem _ (ih h)
  simp only [getopt] at h
  cases hp : pick true argv g with
  | none => rw [hp] at h; simp at h
  | some r =>
    obtain ⟨oc, g1⟩ := r
    rw [hp] at h
    cases oc with
    | none => simp at h
    | some d =>
      simp only at h
      split at h
      · cases h; exact Or.inl rfl
      · rename_i hd
        simp only [not_or] at hd
        have good : d ∈ options ∧ d ≠ ':' ∧ d ≠ ';' := ⟨hm _ _ hd.2.2.2.2.2, hd.2.1, hd.2.2.1⟩
        split at h
        · rename_i here next _ _
          split at h
          · split at h
            · cases h; exact Or.inr good
            · cases next with
              | some a => simp only at h; cases h; exact Or.inr good
              | none =>
                simp only at h
                split at h
                · cases h; exact Or.inr good
                · cases h; exact Or.inl rfl
          · split at h
            · cases h; exact Or.inr good
            · split at h
              · split at h
                · split at h <;> (cases h; exact Or.inr good)
                · cases next with
                  | some a => simp only at h; split at h <;> (cases h; exact Or.inr good)
                  | none => simp only at h; cases h; exact Or.inr good
              · cases h; exact Or.inr good
        · simp at h

/-- The internal error of misc.c:426 does not occur: every letter in the option strings is in the
table. -/
theorem no_internal_error (me : Bool) (what : Nat) (hw : what = OF_CMDLINE ∨ what = OF_SET) (argv : List Arg) :
    ∀ (n : Nat) (g : G) (s s' : S), loop me what argv n g s ≠ some (.internal s')
  | 0, _, _, _ => by simp [loop]
  | n + 1, g, s, s' => by
    simp only [loop]
    cases hg : getopt true (opts what) argv { g with optarg := none } with
    | none => simp
    | some r =>
      obtain ⟨oc, m, g1⟩ := r
      cases oc with
      | none => simp
      | some c =>
        simp only
        have hne : ∀ s', handle me what c g1.plus g1.optarg s ≠ .inr (.internal s') := by
          intro s'
          have hh : (opts what).head? ≠ some ':' := by rcases hw with rfl | rfl <;> decide +kernel
          rcases getopt_ret hh hg with rfl | ⟨h1, h2, h3⟩
          · simp [handle]
          · simp only [handle]
            by_cases hA : c = 'A'
            · rw [if_pos hA]; exact Sum.inl_ne_inr
            rw [if_neg hA]
            by_cases ho : c = 'o'
            · rw [if_pos ho]
              cases g1.optarg with
              | none => exact Sum.inl_ne_inr
              | some n =>
                simp only
                cases option n with
                | none => simp
                | some x =>
                  simp only
                  generalize (if g1.plus = true then 0 else 1) = set
                  split
                  · exact Sum.inl_ne_inr
                  · split
                    · exact Sum.inl_ne_inr
                    · simp
            rw [if_neg ho]
            by_cases hq : c = '?'
            · rw [if_pos hq]; simp
            rw [if_neg hq]
            by_cases hs : what = OF_SET ∧ c = 's'
            · rw [if_pos hs]; exact Sum.inl_ne_inr
            rw [if_neg hs]
            have key : ∀ what ∈ [OF_CMDLINE, OF_SET], ∀ c ∈ opts what, c = ':' ∨ c = ';' ∨ c = 'A' ∨ c = 'o' ∨ (what = OF_SET ∧ c = 's') ∨
                (table.find? fun x => x.c == some c && x.flags &&& what ≠ 0).isSome := by decide +kernel
            have := key what (by rcases hw with rfl | rfl <;> simp) c h1
            simp only [h2, h3, hA, ho, hs, false_or] at this
            obtain ⟨x, hx⟩ := Option.isSome_iff_exists.1 this
            rw [hx]
            exact Sum.inl_ne_inr
        cases hh : handle me what c g1.plus g1.optarg s with
        | inl s2 => exact no_internal_error me what hw argv n g1 s2 s'
        | inr r =>
          simp only
          intro h
          cases h
          exact hne s' hh

/-! ## Restoring the options (C68) -/

theorem loop_pair (me : Bool) (argv : List Arg) (n : Nat) (g : G) (s : S) (sign : Char) (hs : sign = '-' ∨ sign = '+') (nm : Arg)
    (hp : g.p = 0) (h1 : argv[g.optind]? = some [sign, 'o']) (h2 : argv[g.optind + 1]? = some nm) :
    loop me OF_SET argv (n + 1) g s =
      match handle me OF_SET 'o' (sign ≠ '-') (some nm) s with
      | .inl s' => loop me OF_SET argv n { g with optind := g.optind + 2, p := 0, optarg := some nm, plus := sign ≠ '-' } s'
      | .inr r => some r := by
  have l1 : g.optind < argv.length := (List.getElem?_eq_some_iff.1 h1).1
  have l2 : g.optind + 1 < argv.length := (List.getElem?_eq_some_iff.1 h2).1
  have hst : strchr (opts OF_SET) 'o' = some ('o' :: ';' :: 's' :: letters OF_SET) := by decide +kernel
  have hpick : pick true argv { g with optarg := none } = some (some 'o', { g with optarg := none, p := 1, optind := g.optind + 1, plus := sign ≠ '-' }) := by
    simp only [pick, hp, if_true, fresh, arg]
    rw [if_pos (by omega), h1]
    simp only
    rw [if_neg (by simp), if_neg (by rcases hs with rfl | rfl <;> simp)]
  have hg : getopt true (opts OF_SET) argv { g with optarg := none } =
      some (some 'o', none, { g with optind := g.optind + 2, p := 0, optarg := some nm, plus := sign ≠ '-' }) := by
    simp only [getopt, hpick, hst]
    rw [if_neg (by simp)]
    simp only [chr, arg, Nat.add_sub_cancel, h1, h2]
    simp only [List.length_cons, List.length_nil]
    rw [if_pos (by omega), if_pos (by omega)]
    simp
  simp only [loop, hg]
  cases handle me OF_SET 'o' (decide (sign ≠ '-')) (some nm) s <;> rfl

theorem loop_stops (me : Bool) (what : Nat) (argv : List Arg) (n : Nat) (g : G) (s : S) (hp : g.p = 0) (hi : g.optind ≤ argv.length)
    (h : ∀ a, argv[g.optind]? = some a → a = ['-'] ∨ a = ['+'] ∨ (a.head? ≠ some '-' ∧ a.head? ≠ some '+')) :
    loop me what argv (n + 1) g s = some (.done s { g with p := 0, optarg := none }) := by
  have hpick : pick true argv { g with optarg := none } = some (none, { g with p := 0, optarg := none }) := by
    simp only [pick, hp, if_true, fresh, arg]
    rw [if_pos hi]
    cases ha : argv[g.optind]? with
    | none => rfl
    | some a =>
      rcases h a ha with rfl | rfl | ⟨h1, h2⟩
      · simp
      · simp
      · have hne : a ≠ ['-', '-'] := by rintro rfl; simp at h1
        simp only
        rw [if_neg hne]
        cases a with
        | nil => rfl
        | cons c r =>
          simp only [List.head?_cons, ne_eq, Option.some.injEq] at h1 h2
          simp [h1, h2]
  simp only [loop, getopt, hpick]

theorem loop_dashes (me : Bool) (what : Nat) (argv : List Arg) (n : Nat) (g : G) (s : S) (hp : g.p = 0)
    (h : argv[g.optind]? = some ['-', '-']) :
    loop me what argv (n + 1) g s = some (.done s { g with optind := g.optind + 1, p := 0, optarg := none, minusminus := true }) := by
  have l1 : g.optind < argv.length := (List.getElem?_eq_some_iff.1 h).1
  have hpick : pick true argv { g with optarg := none } = some (none, { g with optind := g.optind + 1, p := 0, optarg := none, minusminus := true }) := by
    simp only [pick, hp, if_true, fresh, arg]
    rw [if_pos (by omega), h]
    simp
  simp only [loop, getopt, hpick]

/-- one line of the listing -/
def words (fl : Flags) (x : Entry) : List Arg :=
  match x.name with
  | some n => [(if fl x.f ≠ 0 then "-o" else "+o").toList, n]
  | none => []

/-- the names are those of the entries -/
theorem option_name : ∀ x ∈ table, ∀ n, x.name = some n → option n = some x := by
  have key : ∀ x ∈ table, x.name.all fun n => option n == some x := by decide +kernel
  intro x hx n hn
  have := key x hx
  rw [hn] at this
  simpa using this

/-- The options named by entries of the table, from saved values `sv` -/
theorem restore_loop (me : Bool) (argv : List Arg) (sv : Flags) (h01 : ∀ x ∈ table, x.name ≠ none → sv x.f = 0 ∨ sv x.f = 1)
    (hex : Excl sv) : ∀ (t : List Entry), (∀ x ∈ t, x ∈ table) → t.Nodup →
    ∀ (n : Nat) (g : G) (s : S) (seen : F → Prop), t.length < n → g.p = 0 → g.minusminus = false → s.array = none → s.sort = false →
      argv.drop g.optind = t.flatMap (words sv) → g.optind ≤ argv.length →
      (∀ x ∈ t, x.name ≠ none → x.flags &&& OF_SET = 0 → s.flags x.f = sv x.f) →
      (sv .posix ≠ 0 → s.flags .posix ≠ sv .posix → sv .brace = 0) →
      (∀ f, seen f → s.flags f = sv f) →
      ∃ s' g', loop me OF_SET argv n g s = some (.done s' g') ∧ g'.optind = argv.length ∧ g'.minusminus = false ∧ s'.array = none ∧ s'.sort = false ∧
        ∀ f, (seen f ∨ ∃ x ∈ t, x.name ≠ none ∧ x.f = f) → s'.flags f = sv f := by
  intro t
  induction t with
  | nil =>
    intro _ _ n g s seen hn hp hm ha hso hd hi _ _ hs
    obtain ⟨n, rfl⟩ : ∃ m, n = m + 1 := ⟨n - 1, by simp at hn; omega⟩
    have hlen : g.optind = argv.length := by
      simp only [List.flatMap_nil, List.drop_eq_nil_iff] at hd
      omega
    refine ⟨s, _, loop_stops me OF_SET argv n g s hp hi ?_, hlen, hm, ha, hso, ?_⟩
    · intro a h
      rw [hlen] at h
      simp at h
    · rintro f (h | ⟨x, hx, _⟩)
      · exact hs f h
      · simp at hx
  | cons x t ih =>
    intro ht hnd n g s seen hn hp hm ha hso hd hi hcmd hpx hs
    have hx := ht x (by simp)
    have ht' : ∀ y ∈ t, y ∈ table := fun y hy => ht y (by simp [hy])
    have hnd' : t.Nodup := (List.nodup_cons.1 hnd).2
    obtain ⟨n, rfl⟩ : ∃ m, n = m + 1 := ⟨n - 1, by simp at hn; omega⟩
    cases hnm : x.name with
    | none =>
      have hw : words sv x = [] := by simp [words, hnm]
      rw [List.flatMap_cons, hw, List.nil_append] at hd
      obtain ⟨s', g', r1, r2, r3, r4, r5, r6⟩ := ih ht' hnd' (n + 1) g s seen (by simp at hn; omega) hp hm ha hso hd hi
        (fun y hy => hcmd y (by simp [hy])) hpx hs
      refine ⟨s', g', r1, r2, r3, r4, r5, ?_⟩
      rintro f (h | ⟨y, hy, h1, h2⟩)
      · exact r6 f (Or.inl h)
      · simp only [List.mem_cons] at hy
        rcases hy with rfl | hy
        · rw [hnm] at h1; exact absurd rfl h1
        · exact r6 f (Or.inr ⟨y, hy, h1, h2⟩)
    | some nm =>
      have hv := h01 x hx (by simp [hnm])
      obtain ⟨sign, hsg, hw, hset⟩ : ∃ sign, (sign = '-' ∨ sign = '+') ∧ words sv x = [[sign, 'o'], nm] ∧ (if decide (sign ≠ '-') = true then 0 else 1) = sv x.f := by
        rcases hv with hv | hv
        · exact ⟨'+', Or.inr rfl, by simp [words, hnm, hv], by simp [hv]⟩
        · exact ⟨'-', Or.inl rfl, by simp [words, hnm, hv], by simp [hv]⟩
      rw [List.flatMap_cons, hw] at hd
      have hget : ∀ j, argv[g.optind + j]? = ([sign, 'o'] :: nm :: t.flatMap (words sv))[j]? := by
        intro j
        rw [← List.getElem?_drop, hd]
        rfl
      have h1 : argv[g.optind]? = some [sign, 'o'] := by simpa using hget 0
      have h2 : argv[g.optind + 1]? = some nm := by simpa using hget 1
      have hd2 : argv.drop (g.optind + 2) = t.flatMap (words sv) := by
        rw [← List.drop_drop, hd]
        rfl
      have hi2 : g.optind + 2 ≤ argv.length := (List.getElem?_eq_some_iff.1 h2).1
      rw [loop_pair me argv n g s sign hsg nm hp h1 h2]
      -- the new flags
      obtain ⟨s1, e1, e2, e3, e4, e5, e6⟩ : ∃ s1, handle me OF_SET 'o' (sign ≠ '-') (some nm) s = .inl s1 ∧ s1.array = none ∧ s1.sort = false ∧
          (∀ y ∈ t, y.name ≠ none → y.flags &&& OF_SET = 0 → s1.flags y.f = sv y.f) ∧
          (sv .posix ≠ 0 → s1.flags .posix ≠ sv .posix → sv .brace = 0) ∧
          (∀ f, (seen f ∨ x.f = f) → s1.flags f = sv f) := by
        have hcmd' : ∀ y ∈ t, y.name ≠ none → y.flags &&& OF_SET = 0 → s.flags y.f = sv y.f := fun y hy => hcmd y (by simp [hy])
        simp only [handle, option_name x hx nm hnm, hset]
        rw [if_neg (by decide)]
        simp only [if_true]
        by_cases heq : sv x.f = s.flags x.f
        · rw [if_pos heq]
          refine ⟨s, rfl, ha, hso, hcmd', hpx, ?_⟩
          rintro f (h | h)
          · exact hs f h
          · rw [← h]; exact heq.symm
        · rw [if_neg heq]
          have hfl : x.flags &&& OF_SET ≠ 0 := fun h => heq (hcmd x (by simp) (by simp [hnm]) h).symm
          rw [if_pos hfl]
          have hagree : ∀ f, s.flags f = sv f ∨ x.f = f → changeFlag me x.f OF_SET (sv x.f) s.flags f = sv f := by
            rintro f h
            by_cases hf : f ∈ touches x.f
            · by_cases he : f = x.f
              · rw [he, change_self]
              · have hsf : s.flags f = sv f := h.resolve_right (fun g => he g.symm)
                have hed : ∀ a, x.f = a → (a = .vi ∨ a = .emacs ∨ a = .gmacs) → (f = .vi ∨ f = .emacs ∨ f = .gmacs) → changeFlag me x.f OF_SET (sv x.f) s.flags f = sv f := by
                  intro a ea ha hf
                  rw [ea] at he ⊢
                  rw [edit_change me a f OF_SET _ _ ha hf he]
                  split
                  · rename_i hv
                    by_cases h0 : sv f = 0
                    · exact h0.symm
                    · exact absurd (hex f a hf ha h0 hv) he
                  · exact hsf
                cases hxf : x.f with
                | vi => rw [← hxf]; rw [hxf] at hf; exact hed _ hxf (by simp) (by simpa [touches] using hf)
                | emacs => rw [← hxf]; rw [hxf] at hf; exact hed _ hxf (by simp) (by simpa [touches] using hf)
                | gmacs => rw [← hxf]; rw [hxf] at hf; exact hed _ hxf (by simp) (by simpa [touches] using hf)
                | posix =>
                  rw [hxf] at hf he heq
                  have : f = .brace := by
                    simp only [touches, List.mem_cons, List.not_mem_nil, or_false] at hf
                    rcases hf with h | h
                    · exact absurd h he
                    · exact h
                  subst this
                  rw [posix_brace]
                  split
                  · rename_i hv
                    exact (hpx hv (fun h => heq h.symm)).symm
                  · exact hsf
                | talking =>
                  exfalso
                  have key : ∀ x ∈ table, x.f = .talking → x.flags &&& OF_SET = 0 := by decide +kernel
                  exact hfl (key x hx hxf)
                | _ => rw [hxf] at hf he; simp [touches] at hf; exact absurd hf he
            · have : x.f ≠ f := by
                rintro rfl
                apply hf
                cases x.f <;> simp [touches]
              rw [change_frame me x.f OF_SET _ _ f hf]
              exact h.resolve_right this
          refine ⟨{ s with flags := changeFlag me x.f OF_SET (sv x.f) s.flags }, rfl, ha, hso, ?_, ?_, ?_⟩
          · intro y hy h1 h2
            exact hagree _ (Or.inl (hcmd' y hy h1 h2))
          · intro hp1 hp2
            by_cases hx2 : x.f = .posix
            · simp only at hp2
              rw [← hx2, change_self] at hp2
              exact absurd rfl hp2
            · refine hpx hp1 ?_
              simp only at hp2
              rw [change_frame] at hp2
              · exact hp2
              · cases hxf : x.f <;> simp [touches] at hx2 ⊢ <;> exact absurd hxf hx2
          · rintro f (h | h)
            · exact hagree f (Or.inl (hs f h))
            · exact hagree f (Or.inr h)
      rw [e1]
      simp only
      obtain ⟨s', g', r1, r2, r3, r4, r5, r6⟩ := ih ht' hnd' n { g with optind := g.optind + 2, p := 0, optarg := some nm, plus := sign ≠ '-' } s1
        (fun f => seen f ∨ x.f = f) (by simp at hn; omega) rfl hm e2 e3 hd2 hi2 e4 e5 e6
      refine ⟨s', g', r1, r2, r3, r4, r5, ?_⟩
      rintro f (h | ⟨y, hy, q1, q2⟩)
      · exact r6 f (Or.inl (Or.inl h))
      · simp only [List.mem_cons] at hy
        rcases hy with rfl | hy
        · exact r6 f (Or.inl (Or.inr q2))
        · exact r6 f (Or.inr ⟨y, hy, q1, q2⟩)

/-- **C68**: the command that `set +o` prints restores the values of all named options, and leaves
the positional parameters alone, if the options for the command line only have not changed and
unless posix was on together with braceexpand and has been turned off since. -/
theorem options_restored_partial (me : Bool) (sort : List Arg → List Arg) (sv fl : Flags) (pos : List Arg)
    (h01 : ∀ x ∈ table, x.name ≠ none → sv x.f = 0 ∨ sv x.f = 1) (hex : Excl sv)
    (hcmd : ∀ f, (f = .talking ∨ f = .login ∨ f = .restricted ∨ f = .stdin) → fl f = sv f)
    (hpx : sv .posix ≠ 0 → fl .posix = sv .posix ∨ sv .brace = 0) :
    ∃ fl', cset me sort (shortList sv) fl pos = some (fl', pos, true) ∧ ∀ x ∈ table, x.name ≠ none → fl' x.f = sv x.f := by
  have hlen : ∀ (t : List Entry), t.length ≤ ((t.flatMap (words sv)).map fun a => a.length + 1).sum + (t.filter fun x => x.name.isNone).length := by
    intro t
    induction t with
    | nil => simp
    | cons x t ih =>
      simp only [List.flatMap_cons, List.map_append, List.sum_append, List.length_cons]
      cases hn : x.name with
      | none => simp [words, hn]; omega
      | some n => simp [words, hn]; omega
  have hl2 : (table.filter fun x => x.name.isNone).length = 2 := by decide +kernel
  have hnodup : table.Nodup := by decide +kernel
  have hset : shortList sv = "set".toList :: table.flatMap (words sv) := rfl
  obtain ⟨s', g', r1, r2, r3, r4, r5, r6⟩ := restore_loop me (shortList sv) sv h01 hex table (fun _ h => h) hnodup
    (((shortList sv).map fun a => a.length + 1).sum + 1) reset { flags := fl } (fun _ => False)
    (by have := hlen table; rw [hset, List.map_cons, List.sum_cons]
        have e : ("set".toList).length = 3 := by decide
        rw [e]; omega)
    rfl rfl rfl rfl rfl (by rw [hset]; simp [reset])
    (by
      intro x hx hn hf
      have key : ∀ x ∈ table, x.name ≠ none → x.flags &&& OF_SET = 0 → x.f = .talking ∨ x.f = .login ∨ x.f = .restricted ∨ x.f = .stdin := by decide +kernel
      exact hcmd _ (key x hx hn hf))
    (fun h1 h2 => (hpx h1).resolve_left h2) (fun _ h => h.elim)
  refine ⟨s'.flags, ?_, fun x hx hn => r6 _ (Or.inr ⟨x, hx, hn, rfl⟩)⟩
  have hw : ¬ OF_SET = OF_CMDLINE := by decide
  simp only [cset, parseArgs, if_neg hw, r1, Option.map_some, r2, r3, r4]
  simp

/-- With posix and braceexpand on, `set +o` does not restore braceexpand after `set +o posix`,
because braceexpand comes before posix in the table. -/
theorem brace_not_restored :
    let sv := upd (upd (fun _ => 0) .posix 1) .brace 1
    ((cset true id (shortList sv) (fun _ => 0) []).map fun r => (r.1 .posix, r.1 .brace, sv .brace)) = some (1, 0, 1) := by decide +kernel

/-! ## The positional parameters (C69) -/

/-- **C69**: `set -- args` sets the positional parameters to the arguments, whatever they are, and
changes no option. -/
theorem set_dashes (me : Bool) (sort : List Arg → List Arg) (name : Arg) (args : List Arg) (fl : Flags) (pos : List Arg) :
    cset me sort (name :: ['-', '-'] :: args) fl pos = some (fl, args, true) := by
  have hw : ¬ OF_SET = OF_CMDLINE := by decide
  simp only [cset, parseArgs, if_neg hw]
  rw [loop_dashes me OF_SET _ _ reset _ rfl rfl]
  simp [reset]

/-- **C69**: `set args` does so if the first argument does not begin with `-` or `+`. -/
theorem set_operands (me : Bool) (sort : List Arg → List Arg) (name a : Arg) (args : List Arg) (fl : Flags) (pos : List Arg)
    (h1 : a.head? ≠ some '-') (h2 : a.head? ≠ some '+') :
    cset me sort (name :: a :: args) fl pos = some (fl, a :: args, true) := by
  have hw : ¬ OF_SET = OF_CMDLINE := by decide
  have ha : a ≠ ['-'] := by rintro rfl; simp at h1
  have hb : a ≠ ['+'] := by rintro rfl; simp at h2
  simp only [cset, parseArgs, if_neg hw]
  rw [loop_stops me OF_SET _ _ reset _ rfl (by simp [reset]) (by
    intro x hx
    have : x = a := by simpa [reset] using hx.symm
    rw [this]
    exact Or.inr (Or.inr ⟨h1, h2⟩))]
  simp [reset, ha, hb]

/-- **C69**: a lone `-` is dropped and turns `verbose` and `xtrace` off (not in posix mode); without
arguments behind it the positional parameters stay. -/
theorem set_minus (me : Bool) (sort : List Arg → List Arg) (name : Arg) (args : List Arg) (fl : Flags) (pos : List Arg) :
    cset me sort (name :: ['-'] :: args) fl pos =
      some (if fl .posix = 0 then upd (upd fl .verbose 0) .xtrace 0 else fl, if args = [] then pos else args, true) := by
  have hw : ¬ OF_SET = OF_CMDLINE := by decide
  simp only [cset, parseArgs, if_neg hw]
  rw [loop_stops me OF_SET _ _ reset _ rfl (by simp [reset]) (by
    intro x hx
    have : x = ['-'] := by simpa [reset] using hx.symm
    exact Or.inl this)]
  cases args with
  | nil => simp [reset]
  | cons a as => simp [reset]

/-- **C69**: a lone `+` is dropped; it changes no option. -/
theorem set_plus (me : Bool) (sort : List Arg → List Arg) (name : Arg) (args : List Arg) (fl : Flags) (pos : List Arg) :
    cset me sort (name :: ['+'] :: args) fl pos = some (fl, if args = [] then pos else args, true) := by
  have hw : ¬ OF_SET = OF_CMDLINE := by decide
  simp only [cset, parseArgs, if_neg hw]
  rw [loop_stops me OF_SET _ _ reset _ rfl (by simp [reset]) (by
    intro x hx
    have : x = ['+'] := by simpa [reset] using hx.symm
    exact Or.inr (Or.inl this))]
  cases args with
  | nil => simp [reset]
  | cons a as => simp [reset]

/-- A failed `set` leaves the positional parameters alone. -/
theorem set_fails (me : Bool) (sort : List Arg → List Arg) (argv : List Arg) (fl fl' : Flags) (pos pos' : List Arg)
    (h : cset me sort argv fl pos = some (fl', pos', false)) : pos' = pos := by
  simp only [cset, Option.map_eq_some_iff] at h
  obtain ⟨o, _, h⟩ := h
  cases ha : o.argi with
  | none => rw [ha] at h; simp only [Prod.mk.injEq] at h; exact h.2.1.symm
  | some i => rw [ha] at h; simp at h

/-- The options in front of the arguments do not matter for the arguments: options given by name,
then `--`. -/
theorem set_named (me : Bool) (sort : List Arg → List Arg) (name nm : Arg) (args : List Arg) (fl : Flags) (pos : List Arg) (x : Entry)
    (hx : x ∈ table) (hn : x.name = some nm) (hf : x.flags &&& OF_SET ≠ 0) :
    ∃ fl', cset me sort (name :: ['-', 'o'] :: nm :: ['-', '-'] :: args) fl pos = some (fl', args, true) ∧ fl' x.f = 1 ∧
      ∀ g, g ∉ touches x.f → fl' g = fl g := by
  have hw : ¬ OF_SET = OF_CMDLINE := by decide
  simp only [cset, parseArgs, if_neg hw]
  obtain ⟨k, hk⟩ : ∃ k, ((name :: ['-', 'o'] :: nm :: ['-', '-'] :: args).map fun a => a.length + 1).sum = k + 1 :=
    ⟨((name :: ['-', 'o'] :: nm :: ['-', '-'] :: args).map fun a => a.length + 1).sum - 1, by simp; omega⟩
  rw [hk, loop_pair me _ _ reset _ '-' (Or.inl rfl) nm rfl rfl rfl]
  have hh : ∃ s1, handle me OF_SET 'o' (decide ('-' ≠ '-')) (some nm) { flags := fl } = .inl s1 ∧ s1.array = none ∧ s1.sort = false ∧
      s1.flags x.f = 1 ∧ ∀ g, g ∉ touches x.f → s1.flags g = fl g := by
    simp only [handle, option_name x hx nm hn]
    rw [if_neg (by decide)]
    simp only [if_true]
    by_cases he : 1 = fl x.f
    · exact ⟨_, if_pos he, rfl, rfl, he.symm, fun _ _ => rfl⟩
    · refine ⟨{ flags := changeFlag me x.f OF_SET 1 fl }, (if_neg he).trans (if_pos hf), rfl, rfl, change_self _ _ _ _ _, fun g hg => change_frame _ _ _ _ _ _ hg⟩
  obtain ⟨s1, h1, h2, h3, h4, h5⟩ := hh
  rw [h1]
  simp only
  rw [loop_dashes me OF_SET _ _ _ _ rfl rfl]
  refine ⟨s1.flags, ?_, h4, h5⟩
  simp [h2, h3, reset]

def ws (s : List String) : List Arg := s.map String.toList

/-- the options of an interactive shell, changed and listed -/
example : ((cset true id (ws ["set", "-eo", "vi", "+o", "nohup", "-x", "--", "-a", "b"]) (initial false) []).map
    fun r => (getoptions r.1 == ['e', 'x'] && r.1 .vi == 1 && r.1 .emacs == 0 && r.1 .nohup == 0 && r.2.1 == ws ["-a", "b"] && r.2.2)) =
    some true := by decide +kernel

example : ((cset true id (ws ["set", "+o", "restricted"]) (upd (initial false) .restricted 1) []).map
    fun r => (r.1 .restricted, r.2.2)) = some (1, false) := by decide +kernel

example : ((cset true id (shortList (upd (initial false) .errexit 1)) (changeFlag true .vi OF_SET 1 (initial false)) (ws ["x"])).map
    fun r => (r.1 .vi == 0 && r.1 .emacs == 1 && r.1 .errexit == 1 && r.2.1 == ws ["x"] && r.2.2)) = some true := by decide +kernel

example : let fl := setEditmode true "/usr/bin/vim".toList (initial false); (fl .vi, fl .emacs) = (1, 0) := by decide +kernel

end Ksh.Options
