import Verif.Props.Main
import Verif.Proofs.MainStart

/-! C80: the macros at the first line of the makefile. C81: flags in the environment. -/

namespace Jom.Props

open Jom.Main Cmd Spec.Cmd Spec.Main Parse

section

variable {w : Outside} {args args' plain : List Str} {items : List Item} {t : MacroTable} {name v : Str}

theorem same_dollar {a b : Str} (h : toLower a = toLower b) (ha : '$' ∉ a) : '$' ∉ b := by
  have h1 := noDollar_upper ha
  rw [same_upper h] at h1
  intro hb
  apply h1
  unfold toUpper
  exact List.mem_map.2 ⟨'$', hb, rfl⟩

theorem plain_keys (h : PlainNames w.environment) : ∀ e ∈ setEnvironment w.environment, '$' ∉ e.1 := by
  intro e he
  refine foldl_keys (P := fun a => '$' ∉ a) ?_ (by simp) (fun a b hab => same_dollar hab) e ((mem_sort e _).1 he)
  intro t ht i hi
  obtain ⟨h1, h2⟩ := indexOf_eq hi
  exact h t ht _ _ h1 h2

theorem insert_perm (x : Str × Str) : ∀ l : List (Str × Str), (insertEntry x l).Perm (x :: l)
  | [] => .refl _
  | y :: l => by
    unfold insertEntry
    split
    · exact ((insert_perm x l).cons y).trans (.swap x y l)
    · exact .refl _

theorem sort_perm : ∀ l : List (Str × Str), (sortEntries l).Perm l
  | [] => .refl _
  | x :: l => by
    show (insertEntry x (sortEntries l)).Perm _
    exact (insert_perm x _).trans ((sort_perm l).cons x)

theorem distinct_keys : Distinct (setEnvironment w.environment) := by
  have : Distinct (w.environment.foldl addEntry []) := distinct_foldl _ (by simp [Distinct])
  exact List.Pairwise.perm this (sort_perm _).symm (fun h => h.symm)

theorem lookup_some {l : List (Str × Str)} {e : Str × Str} (he : e ∈ l) : envLookup e.1 l ≠ none := by
  induction l with
  | nil => cases he
  | cons x l ih =>
    unfold envLookup
    split
    · simp
    · rename_i hk
      rcases List.mem_cons.1 he with rfl | he
      · exact absurd (by simp [envKeyEq]) hk
      · exact ih he

theorem unset_keys {k : Str} (h : Unset w.environment k) : ∀ e ∈ setEnvironment w.environment, toLower e.1 ≠ toLower k := by
  intro e he hk
  have : Unset w.environment e.1 := by
    intro t ht v hs
    obtain ⟨n, h1, h2, h3⟩ := hs
    exact h t ht v ⟨n, h1, h2, h3.trans hk⟩
  exact lookup_some he (setEnvironment_unset this)

/-- The table after the command line and after the environment. -/
theorem begins_steps (hb : Begins w args t) (he : expandCommandFiles w.commandFile (arguments w args) = .ok args') :
    ∃ l l1 t1, Main.readLine w args = .ok l ∧
      argLoop args'.length { st := { jobs := w.cpus }, table := { env := setEnvironment w.environment } } args' = .ok l1 ∧
      setMacroValue l1.table c!"MAKEFLAGS" l1.st.makeflags = .ok l.table ∧
      readEnvironment l.st.opts.overrideEnvVarMacros (setEnvironment w.environment) l.table = .ok t1 ∧
      (if l.st.opts.ignorePredefinedRulesAndMacros then .ok t1 else predefineAll (predefined w.appPath w.currentPath) t1) = .ok t := by
  obtain ⟨l, hl, ht⟩ := hb
  obtain ⟨a, l1, g1, g2, g3⟩ := read_ok hl
  rw [he] at g1
  cases g1
  unfold initialMacros at ht
  obtain ⟨t1, h1, h2⟩ := bind_ok ht
  exact ⟨l, l1, t1, hl, g2, finish_table g3, h1, h2⟩

/-- **C80**: a macro of the command line has its (first) value, whatever the environment says, and keeps it through the makefile. -/
theorem C80_command_line {pre post : List Str} {p : Str} (hb : Begins w args t)
    (he : expandCommandFiles w.commandFile (arguments w args) = .ok args') (ha : Args items (pre ++ p :: post) args') (hp : Defines p name v)
    (hpre : ∀ q ∈ pre, ∀ x, ¬ Defines q name x) (hself : ∀ x y, v ≠ x ++ instantiated name ++ y) (hn : PlainNames w.environment) :
    macroValue t.macros name = v ∧ ∀ ops t2, (∀ op ∈ ops, Props.Leaves name op) → runOps t ops = .ok t2 → macroValue t2.macros name = v := by
  obtain ⟨l, l1, t1, hl, h1, h2, h3, h4⟩ := begins_steps hb he
  have hf := (args_first ha rfl hp hself hpre _ _ _ (Nat.le_refl _) (by rfl) h1).2
  have hf := set_keeps (by decide) h2 hf
  obtain ⟨d, g1, g2, g3⟩ := hf
  obtain ⟨d, g1, g2, g3⟩ := readEnvironment_old (plain_keys hn) h3 ⟨d, g1, g3, g2⟩
  have hf : Frozen name v t1 := ⟨d, g1, g3, g2⟩
  have hf : Frozen name v t := by
    split at h4
    · cases h4; exact hf
    · exact predefineAll_frozen h4 hf
  exact ⟨hf.value, fun ops t2 hops h => (runOps_frozen ops hops h hf).value⟩

theorem notDefined {k : Str} (hno : ∀ p ∈ plain, DefinesNot k p) :
    ∀ p ∈ plain, ∀ n value, Defines p n value → n ≠ toUpper k ∧ toUpper n ≠ toUpper k := by
  intro p hp n value hd
  have := hno p hp n value hd
  unfold SameName at this
  refine ⟨?_, fun e => this (upper_eq_iff.1 e)⟩
  rintro rfl
  exact this (PP.toLower_toUpper k)

theorem predefined_iff {k : Str} : Predefined k ↔ ∃ e ∈ predefined w.appPath w.currentPath, k = e.1 := by
  constructor
  · rintro (rfl | rfl | ⟨v, h⟩)
    · exact ⟨_, List.mem_cons_self .., rfl⟩
    · exact ⟨_, List.mem_cons_of_mem _ (List.mem_cons_self ..), rfl⟩
    · have : k ∈ (predefined w.appPath w.currentPath).map (·.1) := by
        rw [predefined_names]
        have hk : k ∈ tools.map (·.1) := List.mem_map.2 ⟨_, h, rfl⟩
        revert hk
        generalize k = x
        revert x
        decide
      obtain ⟨e, he, rfl⟩ := List.mem_map.1 this
      exact ⟨e, he, rfl⟩
  · rintro ⟨e, he, rfl⟩
    have : e.1 ∈ (predefined w.appPath w.currentPath).map (·.1) := List.mem_map.2 ⟨e, he, rfl⟩
    rw [predefined_names] at this
    simp only [List.mem_cons, List.not_mem_nil, or_false] at this
    rcases this with h | h | h | h | h | h | h | h | h | h | h | h | h | h | h | h | h | h | h | h <;> rw [h]
    · exact .inl rfl
    · exact .inr (.inl rfl)
    all_goals (refine .inr (.inr ?_); simp [tools])

/-- A variable of the environment is a macro whose name consists of capital letters, unless the command line defines it or it is predefined (`/R` switches
predefined macros off, `/E` gives priority to the environment). -/
theorem C80_environment_partial (hb : Begins w args t) (he : expandCommandFiles w.commandFile (arguments w args) = .ok args') (ha : Args items plain args')
    (hn : PlainNames w.environment) (hv : Variable w.environment name v) (hd : '$' ∉ v) (hval : isMacroNameValid (toUpper name) = true)
    (hno : ∀ p ∈ plain, DefinesNot name p) (hmf : toUpper name ≠ c!"MAKEFLAGS")
    (hpre : ¬ Predefined (toUpper name) ∨ Given items 'R' ∨ Given items 'E') :
    macroValue t.macros (toUpper name) = v ∧ isMacroDefined t (toUpper name) = true := by
  obtain ⟨l, l1, t1, hl, h1, h2, h3, h4⟩ := begins_steps hb he
  have hm := C55_meaning he ha hl
  have g := args_keeps ha (notDefined hno) (Nat.le_refl _) h1 (x := none) rfl
  have g2 : alookup (toUpper name) l.table.macros = none := by rw [set_other (by decide) (by decide) hmf h2, g]
  obtain ⟨d, g3, g4, g5⟩ := readEnvironment_new (plain_keys hn) distinct_keys h3 hval hd (setEnvironment_variable hv) g2
  have key : ∃ d, alookup (toUpper name) t.macros = some d ∧ d.value = v := by
    split at h4
    · cases h4; exact ⟨d, g3, g4⟩
    · rename_i hr
      by_cases hx : Given items 'E'
      · have : l.st.opts.overrideEnvVarMacros = true := hm.overrideEnvVarMacros.2 hx
        obtain ⟨d, k1, k2, k3⟩ := predefineAll_frozen h4 (n := toUpper name) (x := v) ⟨d, g3, by rw [g5, this], g4⟩
        exact ⟨d, k1, k3⟩
      · refine ⟨d, ?_, g4⟩
        rw [predefineAll_other (predefined_plain _ _) ?_ h4, g3]
        intro e he heq
        rcases hpre with hp | hp | hp
        · exact hp (predefined_iff.2 ⟨e, he, heq⟩)
        · exact hr (hm.ignorePredefinedRulesAndMacros.2 hp)
        · exact hx hp
  obtain ⟨d, k1, k2⟩ := key
  simp [macroValue, isMacroDefined, k1, k2]

/-- Before the predefined macros are set. -/
theorem before_predefined {k : Str} (hk : toUpper k = k) (hmf : k ≠ c!"MAKEFLAGS") {l l1 : Line} {t1 : MacroTable} {ro : Bool} (ha : Args items plain args')
    (hno : ∀ p ∈ plain, DefinesNot k p) (hn : PlainNames w.environment)
    (h1 : argLoop args'.length { st := { jobs := w.cpus }, table := { env := setEnvironment w.environment } } args' = .ok l1)
    (h2 : setMacroValue l1.table c!"MAKEFLAGS" l1.st.makeflags = .ok l.table)
    (h3 : readEnvironment ro (setEnvironment w.environment) l.table = .ok t1) (hu : Unset w.environment k ∨ ro = false) :
    ∀ d, alookup k t1.macros = some d → d.isReadOnly = false := by
  have g := args_keeps ha (notDefined hno) (Nat.le_refl _) h1 (x := none) rfl
  rw [hk] at g
  have g2 : alookup k l.table.macros = none := by rw [set_other (by decide) (by decide) hmf h2, g]
  rcases hu with hu | rfl
  · have : alookup k t1.macros = none := by
      rw [readEnvironment_other (plain_keys hn) ?_ h3, g2]
      intro e he heq
      refine unset_keys hu e he ?_
      rw [heq, PP.toLower_toUpper]
    rw [this]
    simp
  · exact readEnvironment_readOnly (plain_keys hn) h3 (by rw [g2]; simp)

/-- Without `/R` the predefined macros have their values, unless the command line defines them or — with `/E` only — the environment. -/
theorem C80_predefined (hb : Begins w args t) (he : expandCommandFiles w.commandFile (arguments w args) = .ok args') (ha : Args items plain args')
    (hn : PlainNames w.environment) (hr : ¬ Given items 'R') (hno : ∀ p ∈ plain, DefinesNot name p)
    (hu : Unset w.environment name ∨ ¬ Given items 'E') :
    ((name, v) ∈ tools → macroValue t.macros name = v) ∧
    (name = c!"MAKE" → '$' ∉ w.appPath → (∀ c, w.appPath.head? = some c → isSpace c = false) → ForCommands w.appPath (macroValue t.macros name)) ∧
    (name = c!"MAKEDIR" → '$' ∉ w.currentPath → (∀ c, w.currentPath.head? = some c → isSpace c = false) →
      ForCommands w.currentPath (macroValue t.macros name)) := by
  obtain ⟨l, l1, t1, hl, h1, h2, h3, h4⟩ := begins_steps hb he
  have hm := C55_meaning he ha hl
  have hr' : ¬ l.st.opts.ignorePredefinedRulesAndMacros = true := fun h => hr (hm.ignorePredefinedRulesAndMacros.1 h)
  rw [if_neg hr'] at h4
  have hu' : Unset w.environment name ∨ l.st.opts.overrideEnvVarMacros = false := by
    rcases hu with h | h
    · exact .inl h
    · refine .inr ?_
      rw [Bool.eq_false_iff]
      exact fun hx => h (hm.overrideEnvVarMacros.1 hx)
  have key : ∀ x, toUpper name = name → name ≠ c!"MAKEFLAGS" → (name, x) ∈ predefined w.appPath w.currentPath → '$' ∉ x → macroValue t.macros name = x := by
    intro x hk hmf hmem hx
    exact predefineAll_new (predefined_plain _ _) (predefined_nodup _ _) h4 hmem hx (before_predefined hk hmf ha hno hn h1 h2 h3 hu')
  have path : ∀ p : Str, '$' ∉ p → (∀ c, p.head? = some c → isSpace c = false) →
      '$' ∉ encloseInDoubleQuotesIfNeeded (toNative p) ∧ ForCommands p (encloseInDoubleQuotesIfNeeded (toNative p)) := by
    intro p hp hs
    have hmem : ∀ c, c ∈ toNative p → c ∈ p ∨ c = '\\' := by
      intro c hc
      simp only [toNative, List.mem_map] at hc
      obtain ⟨c', h, rfl⟩ := hc
      split
      · exact .inr rfl
      · exact .inl h
    have hspace : ∀ q : Str, (toNative q).any isSpace = q.any isSpace := by
      intro q
      induction q with
      | nil => rfl
      | cons c q ih =>
        simp only [toNative, List.map_cons, List.any_cons] at ih ⊢
        rw [ih]
        by_cases h : c = '/'
        · subst h; rfl
        · rw [if_neg h]
    have hc : isComplexPathName (toNative p) = p.any isSpace := by
      cases p with
      | nil => rfl
      | cons c p =>
        have : isSpace c = false := hs c rfl
        show (toNative p).any isSpace = _
        rw [hspace, List.any_cons, this, Bool.false_or]
    have hdol : '$' ∉ toNative p := by
      intro h
      rcases hmem _ h with h | h
      · exact hp h
      · cases h
    unfold encloseInDoubleQuotesIfNeeded
    rw [hc]
    cases h : p.any isSpace with
    | true =>
      refine ⟨by simpa using hdol, _, rfl, .inl ⟨?_, rfl⟩⟩
      simpa using h
    | false =>
      refine ⟨hdol, _, rfl, .inr ⟨?_, rfl⟩⟩
      simpa using h
  refine ⟨?_, ?_, ?_⟩
  · intro hmem
    have : toUpper name = name ∧ name ≠ c!"MAKEFLAGS" ∧ '$' ∉ v ∧ ∀ a c, (name, v) ∈ predefined a c := by
      simp only [tools, List.mem_cons, List.not_mem_nil, or_false, Prod.mk.injEq] at hmem
      rcases hmem with ⟨h, h'⟩ | ⟨h, h'⟩ | ⟨h, h'⟩ | ⟨h, h'⟩ | ⟨h, h'⟩ | ⟨h, h'⟩ | ⟨h, h'⟩ | ⟨h, h'⟩ | ⟨h, h'⟩ | ⟨h, h'⟩ | ⟨h, h'⟩ | ⟨h, h'⟩ | ⟨h, h'⟩ |
        ⟨h, h'⟩ | ⟨h, h'⟩ | ⟨h, h'⟩ | ⟨h, h'⟩ | ⟨h, h'⟩ <;> rw [h, h'] <;> exact ⟨by decide, by decide, by decide, fun a c => by simp [predefined]⟩
    exact key _ this.1 this.2.1 (this.2.2.2 _ _) this.2.2.1
  · rintro rfl h5 h6
    obtain ⟨q1, q2⟩ := path _ h5 h6
    rw [key _ (by decide) (by decide) (List.mem_cons_self ..) q1]
    exact q2
  · rintro rfl h5 h6
    obtain ⟨q1, q2⟩ := path _ h5 h6
    rw [key _ (by decide) (by decide) (List.mem_cons_of_mem _ (List.mem_cons_self ..)) q1]
    exact q2

/-- Nothing else is defined. Names of macros are compared with their letter case; those of the environment consist of capital letters. -/
theorem C80_undefined (hb : Begins w args t) (he : expandCommandFiles w.commandFile (arguments w args) = .ok args') (ha : Args items plain args')
    (hn : PlainNames w.environment) (hno : ∀ p ∈ plain, ∀ n x, Defines p n x → n ≠ name ∧ toUpper n ≠ name)
    (hu : toUpper name ≠ name ∨ Unset w.environment name) (hpre : ¬ Predefined name ∨ Given items 'R') (hmf : name ≠ c!"MAKEFLAGS") :
    isMacroDefined t name = false := by
  obtain ⟨l, l1, t1, hl, h1, h2, h3, h4⟩ := begins_steps hb he
  have hm := C55_meaning he ha hl
  have g := args_keeps ha hno (Nat.le_refl _) h1 (x := none) rfl
  have g2 : alookup name l.table.macros = none := by rw [set_other (by decide) (by decide) hmf h2, g]
  have g3 : alookup name t1.macros = none := by
    rw [readEnvironment_other (plain_keys hn) ?_ h3, g2]
    intro e he heq
    rcases hu with hu | hu
    · apply hu
      rw [heq]
      exact upper_eq_iff.2 (PP.toLower_toUpper _)
    · refine unset_keys hu e he ?_
      rw [heq, PP.toLower_toUpper]
  have g4 : alookup name t.macros = none := by
    split at h4
    · cases h4; exact g3
    · rename_i hr
      rw [predefineAll_other (predefined_plain _ _) ?_ h4, g3]
      intro e he heq
      rcases hpre with hp | hp
      · exact hp (predefined_iff.2 ⟨e, he, heq⟩)
      · exact hr (hm.ignorePredefinedRulesAndMacros.2 hp)
  simp [isMacroDefined, g4]

/-! ### C81: flags in the environment -/

theorem lookup_blank {n : Str} (h : Blank w.environment n) : (envLookup n (setEnvironment w.environment)).getD [] = [] := by
  rcases h with h | h
  · rw [setEnvironment_unset h]; rfl
  · rw [setEnvironment_variable h]; rfl

/-- **C81**: the flags of the environment, with or without a minus sign in front, are options as if they stood in front of the others on the
command line. -/
theorem C81_flags {f body : Str} {items0 : List Item} (hf : EnvFlags w.environment f) (hb : f = '-' :: body ∨ f = body ∧ body.head? ≠ some '-')
    (h0 : Body true items0 (trimmed body) []) (hne : body ≠ []) (ha : Args items plain args) : Args (items0 ++ items) plain (arguments w args) := by
  have key : arguments w args = ('/' :: body) :: args := by
    unfold arguments commandLineArguments
    obtain ⟨hne0, hf⟩ := hf
    have hcl : (if ((envLookup c!"JOMFLAGS" (setEnvironment w.environment)).getD []).isEmpty then
        (envLookup c!"MAKEFLAGS" (setEnvironment w.environment)).getD [] else (envLookup c!"JOMFLAGS" (setEnvironment w.environment)).getD []) = f := by
      rcases hf with h | ⟨h1, h2⟩
      · rw [setEnvironment_variable h]
        cases f with
        | nil => exact absurd rfl hne0
        | cons c f => rfl
      · rw [lookup_blank h1, setEnvironment_variable h2]; rfl
    simp only [hcl]
    have h1 : f.isEmpty = false := by
      cases f with
      | nil => exact absurd rfl hne0
      | cons c f => rfl
    have h2 : body.isEmpty = false := by
      cases body with
      | nil => exact absurd rfl hne
      | cons c f => rfl
    have h3 : (if startsWith f ['-'] then f.drop 1 else f) = body := by
      rcases hb with rfl | ⟨rfl, hb⟩
      · simp [startsWith]
      · cases f with
        | nil => exact absurd rfl hne
        | cons c f =>
          have : c ≠ '-' := by simpa using hb
          simp [startsWith, this.symm]
    rw [h3]
    simp only [h1, h2, Bool.false_eq_true, if_false]
  rw [key]
  exact .opt (d := '/') (more := []) (.inr rfl) h0 ha

/-- Without such variables the command line is what it is. -/
theorem C81_no_flags (hj : Blank w.environment c!"JOMFLAGS") (hm : Blank w.environment c!"MAKEFLAGS") : arguments w args = args := by
  unfold arguments commandLineArguments
  simp only [lookup_blank hj, lookup_blank hm, List.isEmpty_nil, if_true]

end

/-! ### A call of jom -/

namespace StartCase
open MainCase

def w' : Outside := { w with environment := [c!"CC=gcc", c!"Foo=1", c!"JOMFLAGS=ks", c!"MAKEFLAGS=-i"], appPath := c!"c:/my tools/jom.exe" }

def table (args : List Str) : Option MacroTable := match Main.readLine w' args with
  | .ok l => (initialMacros w' l.st.opts l.table).toOption
  | .error _ => Option.none

theorem begins {args : List Str} (h : (table args).isSome = true) : ∃ t, table args = some t ∧ Begins w' args t := by
  unfold table at h ⊢
  split at h
  · rename_i l hl
    cases ht : initialMacros w' l.st.opts l.table with
    | error e => rw [ht] at h; cases h
    | ok t => exact ⟨t, rfl, l, hl, ht⟩
  · cases h

def a : List Str := [c!"bar=2", c!"app"]

theorem ex : expandCommandFiles w'.commandFile (arguments w' a) = .ok [c!"/ks", c!"bar=2", c!"app"] := by decide +kernel

theorem flags : Body true [.flag 'k', .flag 's'] (trimmed c!"ks") [] :=
  .flag (by decide) (fun _ => notLong_of (by decide)) (.flag (by decide) (fun _ => notLong_of (by decide)) .nil)

theorem rest : Args [] [c!"bar=2", c!"app"] a := .plain (by decide) (by decide) (.plain (by decide) (by decide) .nil)

theorem envFlags : EnvFlags w'.environment c!"ks" :=
  ⟨by decide, .inl ⟨[c!"CC=gcc", c!"Foo=1"], _, [c!"MAKEFLAGS=-i"], rfl, ⟨c!"JOMFLAGS", rfl, by decide, rfl⟩, unset_of (by decide)⟩⟩

/-- `JOMFLAGS` counts, not `MAKEFLAGS`. -/
theorem sp : Args [.flag 'k', .flag 's'] [c!"bar=2", c!"app"] [c!"/ks", c!"bar=2", c!"app"] :=
  C81_flags (args := a) envFlags (.inr ⟨rfl, by decide⟩) flags (by decide) rest

example : arguments { w with environment := [c!"A=-i", c!"JOMFLAGS="] } a = a :=
  C81_no_flags (.inr ⟨[c!"A=-i"], _, [], rfl, ⟨c!"JOMFLAGS", rfl, by decide, rfl⟩, unset_of (by decide)⟩) (.inl (unset_of (by decide)))

theorem names : PlainNames w'.environment := by
  intro t ht n v e hn hd
  have : ∀ t ∈ w'.environment, '$' ∉ t := by decide
  exact this t ht (by rw [e]; simp [hd])

def t : MacroTable := (table a).getD {}

theorem bg : Begins w' a t := by
  obtain ⟨t', h1, h2⟩ := begins (args := a) (by decide +kernel)
  have : t = t' := by rw [t, h1]; rfl
  rw [this]; exact h2

example : macroValue t.macros c!"bar" = c!"2" :=
  (C80_command_line (pre := []) bg ex sp (defines_iff.2 ⟨3, by decide +kernel, by decide +kernel, by decide +kernel, by decide +kernel⟩) (by simp)
    (fun x y e => by
      have : '$' ∈ c!"2" := by rw [e]; simp [instantiated]
      revert this; decide) names).1

theorem spares {n : Str} (h : toLower n ≠ c!"bar") : ∀ p ∈ [c!"bar=2", c!"app"], DefinesNot n p := by
  intro p hp
  simp only [List.mem_cons, List.not_mem_nil, or_false] at hp
  rcases hp with rfl | rfl
  · refine definesNot ?_
    intro idx hi
    have : idx = 3 := by
      have h' : indexOf? ['='] c!"bar=2" = some 3 := by decide +kernel
      rw [h'] at hi; cases hi; rfl
    subst this
    intro e
    exact h (by rw [← e]; decide +kernel)
  · refine definesNot ?_
    intro idx hi
    exact absurd hi (by rw [show indexOf? ['='] c!"app" = Option.none by decide +kernel]; simp)

example : macroValue t.macros c!"FOO" = c!"1" :=
  (C80_environment_partial (name := c!"Foo") bg ex sp names
    ⟨[c!"CC=gcc"], _, [c!"JOMFLAGS=ks", c!"MAKEFLAGS=-i"], rfl, ⟨c!"Foo", rfl, by decide, rfl⟩, unset_of (by decide)⟩ (by decide) (by decide)
    (spares (by decide)) (by decide) (.inl (by
      rintro (h | h | ⟨v, h⟩)
      · revert h; decide
      · revert h; decide
      · have : toUpper c!"Foo" ∈ tools.map (·.1) := List.mem_map.2 ⟨_, h, rfl⟩
        revert this; decide))).1

theorem noR : ∀ u, u ≠ 'K' → u ≠ 'S' → ¬ Given [.flag 'k', .flag 's'] u := by
  rintro u h1 h2 ⟨c, hc, rfl⟩
  simp only [List.mem_cons, Item.flag.injEq, List.not_mem_nil, or_false] at hc
  rcases hc with rfl | rfl
  · exact h1 rfl
  · exact h2 rfl

example : macroValue t.macros c!"RC" = c!"rc" :=
  (C80_predefined bg ex sp names (noR _ (by decide) (by decide)) (spares (by decide)) (.inl (unset_of (by decide)))).1 (by decide)

/-- In double quotes: the path of jom contains a blank. -/
example : ForCommands c!"c:/my tools/jom.exe" (macroValue t.macros c!"MAKE") ∧ macroValue t.macros c!"MAKE" = c!"\"c:\\my tools\\jom.exe\"" :=
  ⟨(C80_predefined (v := []) bg ex sp names (noR _ (by decide) (by decide)) (spares (by decide)) (.inl (unset_of (by decide)))).2.1 rfl (by decide)
    (by rintro c ⟨⟩; decide), by decide +kernel⟩

/-- Small letters: the macro is not defined, although the environment has a variable `Foo`. -/
example : isMacroDefined t c!"foo" = false := by
  refine C80_undefined bg ex sp names ?_ (.inl (by decide)) (.inl ?_) (by decide)
  · intro p hp n x hd
    have := spares (n := c!"foo") (by decide) p hp n x hd
    unfold SameName at this
    refine ⟨fun e => this (by rw [e]), fun e => this (by rw [← PP.toLower_toUpper, e])⟩
  · rintro (h | h | ⟨v, h⟩)
    · revert h; decide
    · revert h; decide
    · have : c!"foo" ∈ tools.map (·.1) := List.mem_map.2 ⟨_, h, rfl⟩
      revert this; decide

end StartCase

/-- C80 fails for variables with the names of predefined macros: `CC=gcc` in the environment has no effect without `/E`, unlike in NMAKE where the
environment has priority over predefined macros. -/
theorem C80_environment_refuted : ∃ (w : Outside) (args : List Str) (t : MacroTable), Begins w args t ∧ Variable w.environment c!"CC" c!"gcc" ∧
    macroValue t.macros c!"CC" = c!"cl" :=
  ⟨StartCase.w', StartCase.a, StartCase.t, StartCase.bg,
    ⟨[], _, [c!"Foo=1", c!"JOMFLAGS=ks", c!"MAKEFLAGS=-i"], rfl, ⟨c!"CC", rfl, by decide, rfl⟩, MainCase.unset_of (by decide)⟩,
    (C80_predefined StartCase.bg StartCase.ex StartCase.sp StartCase.names (StartCase.noR _ (by decide) (by decide)) (StartCase.spares (by decide))
      (.inr (StartCase.noR _ (by decide) (by decide)))).1 (by decide)⟩

end Jom.Props
