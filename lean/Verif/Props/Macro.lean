import Verif.Proofs.MacroFrame
import Verif.Proofs.MacroOps

/-!
Properties C01–C09: macro expansion and macro definitions.
The specification is in `Verif/Spec/Macro.lean`.
-/

namespace Jom.Props
open Jom Jom.Spec

/-! ### C01 termination -/

/-- Every expansion, started with any set of used macros, ends with a text or one of the errors of the
program: the fuel `need` (length of the text plus the total size of the unused macro values) is never
exhausted, and any larger fuel gives the same outcome. -/
theorem C01_expansion_terminates (m : Macros) (dep : Bool) (used : List Str) (s : Str) (f : Nat)
    (hf : s.length + 1 + unusedSize m used ≤ f) :
    expandF m dep f used s ≠ .error .fuel ∧ expandF m dep f used s = expandU m dep used s :=
  ⟨expandF_enough m dep f used s hf, expandF_eq_expandU m dep f used s hf⟩

/-- In particular the top-level call. -/
theorem C01_expandMacros_total (m : Macros) (s : Str) (dep : Bool) :
    (∃ r, expandMacros m s dep = .ok r) ∨
      ∃ e, expandMacros m s dep = .error e ∧ e ≠ .fuel := by
  have h := expandF_enough m dep (need m [] s) [] s (Nat.le_refl _)
  unfold expandMacros expandU
  cases hx : expandF m dep (need m [] s) [] s with
  | ok r => exact Or.inl ⟨r, rfl⟩
  | error e => exact Or.inr ⟨e, rfl, fun he => h (by rw [hx, he])⟩

/-- Table used by the examples: `A = x$(B)y`, `B = $C-$(C)`, `C = 7`, and a cycle `P = $(Q)`, `Q = $P`. -/
def exTable : Macros :=
  [(c!"A", { value := c!"x$(B)y" }), (c!"B", { value := c!"$C-$(C)" }), (c!"C", { value := c!"7" }),
   (c!"P", { value := c!"$(Q)" }), (c!"Q", { value := c!"$P" })]

example : expandMacros exTable c!"<$(A)>$$" = .ok c!"<x7-7y>$" := by decide +kernel
example : expandMacros exTable c!"<$(P)>" = .error (.cycle c!"P") := by decide +kernel

/-! ### C02 meaning -/

/-- Expansion computes exactly the big-step semantics of the text. -/
theorem C02_expansion_meaning (m : Macros) (s r : Str) (dep : Bool) :
    expandMacros m s dep = .ok r ↔ Expands (macroValue m) substEffect dep s r := by
  constructor
  · exact expandU_sound m dep _ [] s r (Nat.le_refl _)
  · rintro ⟨segs, h, w, rfl, D⟩
    exact expandU_complete m dep h segs r [] w D (by intro u hu; cases hu)

/-- A text has at most one meaning, so the relation is a function. -/
theorem C02_meaning_unique (val : Str → Str) (eff : Str → Str → Str) (dep : Bool) (s r r' : Str)
    (h : Expands val eff dep s r) (h' : Expands val eff dep s r') : r = r' := by
  obtain ⟨segs, k, w, e, D⟩ := h
  obtain ⟨segs', k', w', e', D'⟩ := h'
  have := render_inj w w' (e.trans e'.symm)
  subst this
  exact denotes_det D D'

theorem segsWF_append {dep : Bool} {segs rest : List Seg}
    (hw : ∀ g ∈ segs, g.WF dep ∧ (dep = true → g ≠ .dollar)) (hr : SegsWF dep rest) :
    SegsWF dep (segs ++ rest) := by
  induction segs with
  | nil => exact hr
  | cons g segs ih =>
    have hg := hw g (by simp)
    have := ih fun g' hg' => hw g' (by simp [hg'])
    by_cases h : g = .dollar
    · subst h
      simp only [List.cons_append, SegsWF]
      exact ⟨fun hd => absurd rfl (hg.2 hd), this⟩
    · exact segsWF_cons h hg.1 this

/-- The expansion of a concatenation of texts is the concatenation of the expansions, provided the
first text does not end in an incomplete invocation (it is well formed without a lone final `$`; in a
dependents line also without `$$`, whose meaning depends on what follows). -/
theorem C02_compositional (m : Macros) (dep : Bool) (segs : List Seg) (t r1 r2 : Str)
    (hw : ∀ g ∈ segs, g.WF dep ∧ (dep = true → g ≠ .dollar))
    (h1 : expandMacros m (render segs) dep = .ok r1) (h2 : expandMacros m t dep = .ok r2) :
    expandMacros m (render segs ++ t) dep = .ok (r1 ++ r2) := by
  rw [C02_expansion_meaning] at *
  obtain ⟨s1, k1, w1, e1, D1⟩ := h1
  obtain ⟨s2, k2, w2, e2, D2⟩ := h2
  have wsegs : SegsWF dep segs := by
    have := segsWF_append (rest := []) hw (by simp [SegsWF])
    simpa using this
  have := render_inj w1 wsegs e1
  subst this
  refine ⟨s1 ++ s2, max k1 k2, ?_, by simp [render] at e2 ⊢; exact e2, ?_⟩
  · exact segsWF_append hw w2
  · have D1' := D1.mono (max k1 k2) (by omega)
    have D2' := D2.mono (max k1 k2) (by omega)
    clear D1 D2 w1 wsegs e1 hw
    generalize max k1 k2 = k at D1' D2'
    induction D1' with
    | nil => exact D2'
    | lit _ ih => exact .lit (ih D2')
    | dollar _ ih => exact .dollar (ih D2')
    | char a b c _ _ ih => rw [List.append_assoc]; exact .char a b c (ih D2')
    | ref a b c _ _ ih => rw [List.append_assoc]; exact .ref a b c (ih D2')
    | sub a b c _ _ ih => rw [List.append_assoc]; exact .sub a b c (ih D2')
    | fileChar _ ih => exact .fileChar (ih D2')
    | fileParen _ ih => simpa using Denotes.fileParen (ih D2')
    | @depAt h p segs r _ ih =>
      have := Denotes.depAt (p := p) (ih D2')
      cases p <;> simpa using this

/-- The individual forms, in the wording of the property. -/
theorem C02_forms (m : Macros) (dep : Bool) (t r : Str) (ht : expandMacros m t dep = .ok r) :
    (∀ c, c ≠ '$' → expandMacros m (c :: t) dep = .ok (c :: r)) ∧
    (dollarOK dep t → expandMacros m ('$' :: '$' :: t) dep = .ok ('$' :: r)) ∧
    (∀ n v, NameOK n → expandMacros m (macroValue m n) dep = .ok v →
      (¬ MReaches (macroValue m) dep (macroValue m n) n) ∧
      expandMacros m ('$' :: '(' :: (n ++ ')' :: t)) dep = .ok (v ++ r)) ∧
    (∀ c v, isLetterOrNumber c = true → expandMacros m (macroValue m [c]) dep = .ok v →
      expandMacros m ('$' :: c :: t) dep = .ok (v ++ r)) ∧
    (∀ n st v, NameOK n → '=' ∈ st → quotedOK false st = true →
      expandMacros m (macroValue m n) dep = .ok v →
      expandMacros m ('$' :: '(' :: (n ++ ':' :: (st ++ ')' :: t))) dep = .ok (substEffect st v ++ r)) ∧
    expandMacros m ['$'] dep = .ok ['$'] := by
  rw [C02_expansion_meaning] at ht
  obtain ⟨segs, k, w, e, D⟩ := ht
  refine ⟨?_, ?_, ?_, ?_, ?_, ?_⟩
  · intro c hc
    rw [C02_expansion_meaning]
    exact ⟨.lit c :: segs, k, segsWF_cons (by simp) hc w, by simp [render, Seg.render] at e ⊢; exact e, .lit D⟩
  · intro hd
    rw [C02_expansion_meaning]
    refine ⟨.dollar :: segs, k, ?_, by simp [render, Seg.render] at e ⊢; exact e, .dollar D⟩
    simp only [SegsWF, e]
    exact ⟨hd, w⟩
  · intro n v hn hv
    rw [C02_expansion_meaning] at hv
    obtain ⟨vs, kv, wv, ev, Dv⟩ := hv
    refine ⟨hasDer_acyclic ⟨vs, v, wv, ev, Dv⟩, ?_⟩
    rw [C02_expansion_meaning]
    refine ⟨.ref n :: segs, max k kv + 1, segsWF_cons (by simp) hn w,
      by simp [render, Seg.render] at e ⊢; exact e, ?_⟩
    exact .ref wv ev (Dv.mono _ (by omega)) (D.mono _ (by omega))
  · intro c v hc hv
    rw [C02_expansion_meaning] at hv ⊢
    obtain ⟨vs, kv, wv, ev, Dv⟩ := hv
    refine ⟨.char c :: segs, max k kv + 1, segsWF_cons (by simp) hc w,
      by simp [render, Seg.render] at e ⊢; exact e, ?_⟩
    exact .char wv ev (Dv.mono _ (by omega)) (D.mono _ (by omega))
  · intro n st v hn heq hq hv
    rw [C02_expansion_meaning] at hv ⊢
    obtain ⟨vs, kv, wv, ev, Dv⟩ := hv
    refine ⟨.sub n st :: segs, max k kv + 1, segsWF_cons (by simp) ⟨hn, heq, hq⟩ w,
      by simp [render, Seg.render] at e ⊢; exact e, ?_⟩
    exact .sub wv ev (Dv.mono _ (by omega)) (D.mono _ (by omega))
  · simp [expandMacros]

example : expandMacros exTable c!"<$(A)>$$" = .ok c!"<x7-7y>$" ∧
    NameOK c!"A" ∧ expandMacros exTable (macroValue exTable c!"A") = .ok c!"x7-7y" :=
  ⟨by decide +kernel, ⟨⟨'A', [], rfl, by decide⟩, by decide, by decide⟩, by decide +kernel⟩

/-! ### C03 cycle detection -/

/-- Expansion succeeds exactly if the text and every reachable macro value are well formed and no
reachable macro reaches itself. -/
theorem C03_cycle_detection_exact (m : Macros) (s : Str) (dep : Bool) :
    (∃ r, expandMacros m s dep = .ok r) ↔
      WellFormed dep s ∧ ∀ n, MReaches (macroValue m) dep s n →
        WellFormed dep (macroValue m n) ∧ ¬ MReaches (macroValue m) dep (macroValue m n) n := by
  constructor
  · rintro ⟨r, h⟩
    rw [C02_expansion_meaning] at h
    obtain ⟨segs, h, w, e, D⟩ := h
    refine ⟨⟨segs, w, e⟩, ?_⟩
    intro n hn
    obtain ⟨h', _, hd⟩ := reaches_hasDer hn w e D
    obtain ⟨vs, r', wv, ev, Dv⟩ := hd
    exact ⟨⟨vs, wv, ev⟩, hasDer_acyclic ⟨vs, r', wv, ev, Dv⟩⟩
  · rintro ⟨⟨segs, w, rfl⟩, h⟩
    exact expandU_succeeds m dep _ [] segs (Nat.le_refl _) w h (by intro u hu; cases hu)

/-- If everything reachable is well formed and the expansion fails, the error is a cycle error and it
names a reachable macro that really refers back to itself. -/
theorem C03_reported_cycle_is_real (m : Macros) (s : Str) (dep : Bool) (e : MacroErr)
    (hw : WellFormed dep s) (hwf : ∀ n, MReaches (macroValue m) dep s n → WellFormed dep (macroValue m n))
    (h : expandMacros m s dep = .error e) :
    ∃ n, e = .cycle n ∧ MReaches (macroValue m) dep s n ∧ MReaches (macroValue m) dep (macroValue m n) n := by
  obtain ⟨segs, w, rfl⟩ := hw
  obtain ⟨n, h1, h2, h3⟩ := expandU_error m dep _ [] segs e (Nat.le_refl _) w hwf h
  refine ⟨n, h1, h2, ?_⟩
  rcases h3 with h3 | h3
  · cases h3
  · exact h3

/-- Using a macro repeatedly without a cycle is not an error. -/
example : expandMacros exTable c!"$(C)$(B)$C$(B)" = .ok c!"77-777-7" := by decide +kernel
/-- A text whose reachable values are well formed but cyclic (hypotheses of `C03_reported_cycle_is_real`). -/
example : WellFormed false c!"$(P)" ∧ MReaches (macroValue exTable) false c!"$(P)" c!"P" ∧
    MReaches (macroValue exTable) false (macroValue exTable c!"P") c!"P" := by
  refine ⟨⟨[.ref c!"P"], ?_, by decide⟩, .direct ⟨[.ref c!"P"], ?_, by decide, .ref c!"P", by decide, by decide⟩, ?_⟩
  · exact ⟨⟨⟨'P', [], rfl, by decide⟩, by decide, by decide⟩, trivial⟩
  · exact ⟨⟨⟨'P', [], rfl, by decide⟩, by decide, by decide⟩, trivial⟩
  · refine .step (k := c!"Q") ⟨[.ref c!"Q"], ?_, by decide +kernel, .ref c!"Q", by decide, by decide⟩
      (.direct ⟨[.char 'P'], ?_, by decide +kernel, .char 'P', by decide, by decide⟩)
    · exact ⟨⟨⟨'Q', [], rfl, by decide⟩, by decide, by decide⟩, trivial⟩
    · exact ⟨by show isLetterOrNumber 'P' = true; decide, trivial⟩

/-! ### C04 frame -/

/-- If two tables agree on a set of names that contains everything the text mentions and is closed
under mentioning, they give the same outcome (text or error). -/
theorem C04_expansion_frame (m m' : Macros) (S : Str → Prop) (dep : Bool) (s : Str)
    (hs : ∀ n, Mentions s n → S n)
    (hclosed : ∀ n, S n → ∀ k, Mentions (macroValue m n) k → S k)
    (hagree : ∀ n, S n → macroValue m n = macroValue m' n) :
    expandMacros m s dep = expandMacros m' s dep :=
  expandMacros_frame m m' S dep s (fun n hn => ⟨hagree n hn, hclosed n hn⟩) hs

/-- For successful expansions agreement on the reachable macros is enough. -/
theorem C04_success_frame (m m' : Macros) (dep : Bool) (s r : Str)
    (hagree : ∀ n, MReaches (macroValue m) dep s n → macroValue m n = macroValue m' n)
    (h : expandMacros m s dep = .ok r) : expandMacros m' s dep = .ok r := by
  rw [C02_expansion_meaning] at *
  obtain ⟨segs, k, w, e, D⟩ := h
  subst e
  refine ⟨segs, k, w, rfl, ?_⟩
  induction D with
  | nil => exact .nil
  | lit _ ih => exact .lit (ih (segsWF_tail w) fun n hn => hagree n (reaches_of_tail w hn))
  | dollar _ ih => exact .dollar (ih (segsWF_tail w) fun n hn => hagree n (reaches_of_tail w hn))
  | @char h c segs r vs v wv ev _ _ ih1 ih2 =>
    have hrf : RefersTo dep (render (.char c :: segs)) [c] := ⟨_, w, rfl, .char c, by simp, by simp [Seg.refs]⟩
    exact .char wv (by rw [ev]; exact hagree _ (.direct hrf))
      (ih1 wv fun n hn => hagree n (.step hrf (by rw [← ev]; exact hn)))
      (ih2 (segsWF_tail w) fun n hn => hagree n (reaches_of_tail w hn))
  | @ref h c segs r vs v wv ev _ _ ih1 ih2 =>
    have hrf : RefersTo dep (render (.ref c :: segs)) c := ⟨_, w, rfl, .ref c, by simp, by simp [Seg.refs]⟩
    exact .ref wv (by rw [ev]; exact hagree _ (.direct hrf))
      (ih1 wv fun n hn => hagree n (.step hrf (by rw [← ev]; exact hn)))
      (ih2 (segsWF_tail w) fun n hn => hagree n (reaches_of_tail w hn))
  | @sub h c st segs r vs v wv ev _ _ ih1 ih2 =>
    have hrf : RefersTo dep (render (.sub c st :: segs)) c := ⟨_, w, rfl, .sub c st, by simp, by simp [Seg.refs]⟩
    exact .sub wv (by rw [ev]; exact hagree _ (.direct hrf))
      (ih1 wv fun n hn => hagree n (.step hrf (by rw [← ev]; exact hn)))
      (ih2 (segsWF_tail w) fun n hn => hagree n (reaches_of_tail w hn))
  | fileChar _ ih => exact .fileChar (ih (segsWF_tail w) fun n hn => hagree n (reaches_of_tail w hn))
  | fileParen _ ih => exact .fileParen (ih (segsWF_tail w) fun n hn => hagree n (reaches_of_tail w hn))
  | depAt _ ih => exact .depAt (ih (segsWF_tail w) fun n hn => hagree n (reaches_of_tail w hn))

/-- Non-trivial instance: the cyclic macros do not matter for `$(A)`. -/
example : expandMacros exTable c!"$(A)" =
    expandMacros (aset c!"P" { value := c!"$" } (aerase c!"Q" exTable)) c!"$(A)" ∧
    expandMacros exTable c!"$(A)" = .ok c!"x7-7y" := by decide +kernel

/-! ### C05, C06 precedence -/

/-- The calls that may happen after `n` has been defined on the command line: anything except an
explicit `!UNDEF n` and another command-line definition of `n`.  (Names on the command line are
checked by `isMacroNameValid` in options.cpp 106; names of environment variables contain no `$`.) -/
def Leaves (n : Str) : MacroOp → Prop
  | .set _ _ => True
  | .predefine _ _ => True
  | .environment k _ _ => '$' ∉ toUpper k
  | .commandLine k _ => k ≠ n ∧ isMacroNameValid k = true
  | .commandLineImplicit k _ => k ≠ n ∧ isMacroNameValid k = true
  | .undef k => k ≠ n

theorem apply_frozen {n v : Str} {t t' : MacroTable} {op : MacroOp} (hop : Leaves n op)
    (h : op.apply t = .ok t') (hf : Frozen n v t) : Frozen n v t' := by
  cases op with
  | set a b => exact setImpl_frozen (by simp) h hf
  | predefine a b => exact setImpl_frozen (by simp) h hf
  | environment a b ro =>
    obtain ⟨d, hl, hro, hv⟩ := hf
    obtain ⟨d', h1, h2, h3⟩ := (env_ok h).2.1 n d hl hro
    rcases h3 with h3 | ⟨h3, _⟩
    · exact ⟨d', h1, h3, by rw [h2, hv]⟩
    · exact absurd h3 hop
  | commandLine a b => exact cmd_frozen hop.1 (valid_noDollar hop.2) h hf
  | commandLineImplicit a b => exact cmd_frozen hop.1 (valid_noDollar hop.2) h hf
  | undef a =>
    cases h
    obtain ⟨d, hl, hro, hv⟩ := hf
    have hop : a ≠ n := hop
    exact ⟨d, by simp only [undefineMacro, alookup_aerase, hop, if_false]; exact hl, hro, hv⟩

theorem runOps_frozen {n v : Str} (ops : List MacroOp) : ∀ {t t' : MacroTable}, (∀ op ∈ ops, Leaves n op) →
    runOps t ops = .ok t' → Frozen n v t → Frozen n v t' := by
  induction ops with
  | nil => intro t t' _ h hf; cases h; exact hf
  | cons op ops ih =>
    intro t t' hops h hf
    obtain ⟨t1, h1, h⟩ := bind_ok h
    exact ih (fun op' hm => hops op' (by simp [hm])) h (apply_frozen (hops op (by simp)) h1 hf)

/-- A macro defined on the command line keeps its value through any sequence of calls, whatever other
macros do.  The value is the given one (with a self-reference replaced by the previous value). -/
theorem C05_command_line_wins (t t1 t2 : MacroTable) (n v : Str) (ops : List MacroOp)
    (hn : isMacroNameValid n = true)
    (h1 : defineCommandLineMacroValue t n v = .ok t1)
    (hops : ∀ op ∈ ops, Leaves n op) (h2 : runOps t1 ops = .ok t2) :
    Replaces (instantiated n) (macroValue t.macros n) v (macroValue t2.macros n) ∧
      isMacroDefined t2 n = true := by
  have hf := runOps_frozen ops hops h2 (cmd_freezes hn h1)
  rw [hf.value]
  refine ⟨replaceAll_spec _ _ _ (by simp [instantiated]), ?_⟩
  obtain ⟨d, hd, _⟩ := hf
  simp [isMacroDefined, hd]

/-- The same for the implicit upper-case definition. -/
theorem C05_implicit_wins (t t1 t2 : MacroTable) (n v : Str) (ops : List MacroOp)
    (hn : isMacroNameValid n = true)
    (h1 : defineImplicitCommandLineMacroValue t n v = .ok t1)
    (hops : ∀ op ∈ ops, Leaves n op) (h2 : runOps t1 ops = .ok t2) :
    Replaces (instantiated n) (macroValue t.macros n) v (macroValue t2.macros n) ∧
      isMacroDefined t2 n = true := by
  have hf := runOps_frozen ops hops h2 (cmd_freezes hn h1)
  rw [hf.value]
  refine ⟨replaceAll_spec _ _ _ (by simp [instantiated]), ?_⟩
  obtain ⟨d, hd, _⟩ := hf
  simp [isMacroDefined, hd]

/-- For a value that does not mention the macro itself the value is literally the given one. -/
theorem C05_plain_value (t t1 t2 : MacroTable) (n v : Str) (ops : List MacroOp)
    (hn : isMacroNameValid n = true) (hv : ∀ x y, v ≠ x ++ instantiated n ++ y)
    (h1 : defineCommandLineMacroValue t n v = .ok t1)
    (hops : ∀ op ∈ ops, Leaves n op) (h2 : runOps t1 ops = .ok t2) :
    macroValue t2.macros n = v :=
  (replaces_det (C05_command_line_wins t t1 t2 n v ops hn h1 hops h2).1 (.none hv))

/-- `!UNDEF` removes even a command-line macro. -/
theorem C05_undef_removes (t : MacroTable) (n : Str) :
    isMacroDefined (undefineMacro t n) n = false ∧ macroValue (undefineMacro t n).macros n = [] ∧
    ∀ k, k ≠ n → alookup k (undefineMacro t n).macros = alookup k t.macros := by
  refine ⟨by simp [isMacroDefined, undefineMacro, alookup_aerase],
    by simp [macroValue, undefineMacro, alookup_aerase], ?_⟩
  intro k hk
  simp only [undefineMacro, alookup_aerase, if_neg (Ne.symm hk)]

/-- Non-trivial instance. -/
example :
    let ops : List MacroOp := [.set c!"N" c!"FOO", .set c!"$(N)" c!"2", .predefine c!"FOO" c!"3",
      .environment c!"foo" c!"4" false, .undef c!"N", .set c!"FOO" c!"$(FOO)5"]
    (defineCommandLineMacroValue {} c!"FOO" c!"1" >>= fun t => runOps t ops).toOption.map
      (fun t => macroValue t.macros c!"FOO") = some c!"1" ∧ ∀ op ∈ ops, Leaves c!"FOO" op := by
  refine ⟨by decide +kernel, ?_⟩
  intro op hop
  simp only [List.mem_cons, List.not_mem_nil, or_false] at hop
  rcases hop with rfl | rfl | rfl | rfl | rfl | rfl <;> simp only [Leaves] <;> decide

/-- With `/E` (`readOnly = true`) a macro that was created from the environment keeps its value. -/
theorem C06_env_with_E_wins (t t1 t2 : MacroTable) (k v : Str) (ops : List MacroOp)
    (hn : isMacroNameValid (toUpper k) = true)
    (hnew : isMacroDefined t (toUpper k) = false)
    (h1 : defineEnvironmentMacroValue t k v true = .ok t1)
    (hdef : isMacroDefined t1 (toUpper k) = true)
    (hops : ∀ op ∈ ops, Leaves (toUpper k) op) (h2 : runOps t1 ops = .ok t2) :
    Replaces (instantiated (toUpper k)) [] v (macroValue t2.macros (toUpper k)) := by
  have hnone : alookup (toUpper k) t.macros = none := by
    simpa [isMacroDefined] using hnew
  have hf : Frozen (toUpper k) (replaceAll (instantiated (toUpper k)) [] v) t1 := by
    unfold defineEnvironmentMacroValue at h1
    simp only [hnone] at h1
    split at h1
    · cases h1; rw [hnew] at hdef; cases hdef
    · obtain ⟨o, ho, h⟩ := bind_ok h1
      cases o with
      | none => cases h; rw [hnew] at hdef; cases hdef
      | some p =>
        obtain ⟨t3, n⟩ := p
        obtain ⟨a1, a2, a3, a4, a5⟩ := internalSet_ok ho
        rw [expandMacros_plain _ _ _ (valid_noDollar hn)] at a1
        cases a1
        simp only [Except.ok.injEq] at h
        subst h
        refine ⟨_, by simp only [setEnvironmentVariable, alookup_modify, if_true, a5]; rfl, rfl, ?_⟩
        simp [hnone, macroValue]
  have hf2 := runOps_frozen ops hops h2 hf
  rw [hf2.value]
  exact replaceAll_spec _ _ _ (by simp [instantiated])

/-- When the environment definition creates the macro: exactly if it did not exist, its text can be
expanded and its upper-case name is a valid macro name.  An existing macro keeps its value. -/
theorem C06_env_defines (t : MacroTable) (k v : Str) (ro : Bool)
    (hd : '$' ∉ toUpper k) :
    (∀ d, alookup (toUpper k) t.macros = some d →
      ∀ t', defineEnvironmentMacroValue t k v ro = .ok t' → macroValue t'.macros (toUpper k) = d.value) ∧
    (∀ r, isMacroDefined t (toUpper k) = false → expandMacros t.macros v = .ok r →
      isMacroNameValid (toUpper k) = true →
      ∃ t', defineEnvironmentMacroValue t k v ro = .ok t' ∧
        Replaces (instantiated (toUpper k)) [] v (macroValue t'.macros (toUpper k)) ∧
        envLookup (toUpper k) t'.env = some r) ∧
    (isMacroDefined t (toUpper k) = false →
      (∀ r, expandMacros t.macros v ≠ .ok r) ∨ isMacroNameValid (toUpper k) = false →
      defineEnvironmentMacroValue t k v ro = .ok t) := by
  refine ⟨?_, ?_, ?_⟩
  · intro d hl t' h
    obtain ⟨d', h1, h2, _⟩ := (env_ok h).2.2 d hl
    simp [macroValue, h1, h2]
  · intro r hnew hr hv
    have hnone : alookup (toUpper k) t.macros = none := by simpa [isMacroDefined] using hnew
    have hexp := expandMacros_plain t.macros false (toUpper k) hd
    unfold defineEnvironmentMacroValue
    simp only [hnone, hr]
    unfold internalSet
    simp only [hexp, bind, Except.bind, hv, Bool.not_true, Bool.false_eq_true, if_false]
    refine ⟨_, rfl, ?_, ?_⟩
    · simp only [macroValue, setEnvironmentVariable, alookup_modify, if_true, alookup_aset, hnone,
        Option.getD_none, Option.map_some]
      exact replaceAll_spec _ _ _ (by simp [instantiated])
    · simp only [setEnvironmentVariable, modifyEntry_env]
      generalize t.env = env
      induction env with
      | nil => simp [envSet, envLookup, envKeyEq]
      | cons x l ih =>
        obtain ⟨a, b⟩ := x
        by_cases hx : envKeyEq a (toUpper k) = true
        · simp [envSet, envLookup, hx]
        · simp [envSet, envLookup, hx, ih]
  · intro hnew hcase
    have hnone : alookup (toUpper k) t.macros = none := by simpa [isMacroDefined] using hnew
    unfold defineEnvironmentMacroValue
    simp only [hnone]
    cases hr : expandMacros t.macros v with
    | error e => rfl
    | ok r =>
      rcases hcase with h | h
      · exact absurd hr (h r)
      · unfold internalSet
        simp [expandMacros_plain t.macros false (toUpper k) hd, bind, Except.bind, h]

/-- Without read-only protection the last makefile assignment wins; nothing else changes. -/
theorem C06_last_assignment_wins (t t' : MacroTable) (name n v : Str)
    (hname : expandMacros t.macros name = .ok n)
    (hro : ∀ d, alookup n t.macros = some d → d.isReadOnly = false)
    (h : setMacroValue t name v = .ok t') :
    Replaces (instantiated n) (macroValue t.macros n) v (macroValue t'.macros n) ∧
    ∀ k, k ≠ n → macroValue t'.macros k = macroValue t.macros k := by
  obtain ⟨n', h1, h2, h3, h4, h5⟩ := setImpl_ok (by simp) h
  rw [hname] at h1
  cases h1
  have hro' : ((alookup n t.macros).getD {}).isReadOnly = false := by
    cases hx : alookup n t.macros with
    | none => rfl
    | some d => exact hro d hx
  simp only [hro', Bool.false_eq_true, if_false] at h5
  refine ⟨?_, ?_⟩
  · rw [show macroValue t'.macros n = _ by simp only [macroValue, h5]; rfl]
    exact replaceAll_spec _ _ _ (by simp [instantiated])
  · intro k hk
    simp [macroValue, h4 k hk]

/-- A macro created from the environment without `/E` is not read-only. -/
theorem C06_env_without_E_not_read_only (t t' : MacroTable) (k v : Str)
    (hnew : isMacroDefined t (toUpper k) = false) (hd : '$' ∉ toUpper k)
    (h : defineEnvironmentMacroValue t k v false = .ok t') :
    ∀ d, alookup (toUpper k) t'.macros = some d → d.isReadOnly = false := by
  have hnone : alookup (toUpper k) t.macros = none := by simpa [isMacroDefined] using hnew
  intro d hl
  unfold defineEnvironmentMacroValue at h
  simp only [hnone] at h
  split at h
  · cases h; rw [hnone] at hl; cases hl
  · obtain ⟨o, ho, h⟩ := bind_ok h
    cases o with
    | none => cases h; rw [hnone] at hl; cases hl
    | some p =>
      obtain ⟨t3, n⟩ := p
      obtain ⟨a1, a2, a3, a4, a5⟩ := internalSet_ok ho
      rw [expandMacros_plain _ _ _ hd] at a1
      cases a1
      simp only [Except.ok.injEq] at h
      subst h
      simp only [setEnvironmentVariable, alookup_modify, if_true, a5, Option.map_some, Option.some.injEq] at hl
      rw [← hl]

/-- Command line before environment: an environment variable never changes a defined macro. -/
theorem C06_command_line_beats_env (t t1 t2 : MacroTable) (n k v w : Str) (ro : Bool)
    (hn : isMacroNameValid n = true) (hk : '$' ∉ toUpper k)
    (h1 : defineCommandLineMacroValue t n v = .ok t1)
    (h2 : defineEnvironmentMacroValue t1 k w ro = .ok t2) :
    macroValue t2.macros n = macroValue t1.macros n := by
  have hf := cmd_freezes hn h1
  have := apply_frozen (op := .environment k w ro) (by exact hk) h2 hf
  rw [this.value, hf.value]

example : -- hypotheses of the C06 theorems are met
    (defineEnvironmentMacroValue {} c!"Path" c!"x;$(PATH)" true).toOption.map
      (fun t => (macroValue t.macros c!"PATH", t.env)) = some (c!"x;", [(c!"PATH", c!"x;")]) ∧
    (defineEnvironmentMacroValue {} c!"Path" c!"x" true >>= fun t =>
      runOps t [.set c!"PATH" c!"y"]).toOption.map (fun t => macroValue t.macros c!"PATH") = some c!"x" ∧
    (defineEnvironmentMacroValue {} c!"Path" c!"x" false >>= fun t =>
      runOps t [.set c!"PATH" c!"$(PATH);y"]).toOption.map (fun t => macroValue t.macros c!"PATH") =
        some c!"x;y" := by decide +kernel

/-! ### C07 incremental redefinition -/

/-- An assignment to a macro that may be changed stores the text with every `$(A)` replaced by the
value `A` had before, changes no other macro and does not touch the environment. -/
theorem C07_incremental_redefinition (t t' : MacroTable) (n v : Str)
    (hro : ∀ d, alookup n t.macros = some d → d.isReadOnly = false)
    (hn : isMacroNameValid n = true)
    (h : setMacroValue t n v = .ok t') :
    Replaces ('$' :: '(' :: (n ++ [')'])) (macroValue t.macros n) v (macroValue t'.macros n) ∧
    (∀ k, k ≠ n → macroValue t'.macros k = macroValue t.macros k) ∧ t'.env = t.env := by
  have hname := expandMacros_plain t.macros false n (valid_noDollar hn)
  obtain ⟨h1, h2⟩ := C06_last_assignment_wins t t' n n v hname hro h
  obtain ⟨_, _, _, h3, _⟩ := setImpl_ok (by simp) h
  exact ⟨h1, h2, h3⟩

/-- `A = x $(A) y` prepends and appends to the old value. -/
theorem C07_append (t t' : MacroTable) (n x y : Str)
    (hro : ∀ d, alookup n t.macros = some d → d.isReadOnly = false)
    (hn : isMacroNameValid n = true) (hx : '$' ∉ x) (hy : '$' ∉ y)
    (h : setMacroValue t n (x ++ instantiated n ++ y) = .ok t') :
    macroValue t'.macros n = x ++ macroValue t.macros n ++ y := by
  have h1 := (C07_incremental_redefinition t t' n _ hro hn h).1
  refine replaces_det h1 (Replaces.some (b := '$' :: '(' :: (n ++ [')'])) ?_ ?_)
  · intro x' y' e
    rcases Nat.lt_or_ge x'.length x.length with hlt | hge
    · exfalso
      have := congrArg (fun l => l[x'.length]?) e
      simp only [List.append_assoc] at this
      rw [List.getElem?_append_left hlt] at this
      simp at this
      apply hx
      rw [List.getElem?_eq_some_iff] at this
      obtain ⟨hl, he⟩ := this
      rw [← he]
      exact List.getElem_mem hl
    · exact hge
  · refine .none ?_
    intro x' y' e
    apply hy
    rw [e]
    simp

/-- The makefile can always assign to a macro with a valid name. -/
theorem C07_assignment_succeeds (t : MacroTable) (n v : Str) (hn : isMacroNameValid n = true) :
    ∃ t', setMacroValue t n v = .ok t' := by
  unfold setMacroValue setMacroValueImpl internalSet
  simp [expandMacros_plain t.macros false n (valid_noDollar hn), bind, Except.bind, hn]

example : (runOps {} [.set c!"A" c!"1", .set c!"B" c!"$(A)", .set c!"A" c!"<$(A)|$(A)|$(B)>"]).toOption.map
    (fun t => (macroValue t.macros c!"A", macroValue t.macros c!"B")) =
    some (c!"<1|1|$(B)>", c!"$(A)") := by decide +kernel

/-- The replacement is purely textual: it also rewrites the escaped form `$$(A)`, so `A = $$(A)` does
not store the literal text but `$` followed by the old value, here turning into an invocation of `X`. -/
theorem C07_escaped_self_reference_is_rewritten :
    (runOps {} [.set c!"X" c!"boo", .set c!"A" c!"X", .set c!"A" c!"$$(A)"] >>= fun t =>
      expandMacros t.macros c!"$(A)") = .ok c!"boo" := by decide +kernel

/-! ### C08 substitution -/

/-- `$(A:before=after)`: all occurrences, leftmost first and not overlapping, are replaced; carets in
`after` quote the next character and disappear.  `before` must not be empty and must not contain a
caret (see `C08_caret_in_before_breaks`). -/
theorem C08_substitution_partial (m : Macros) (dep : Bool) (n before after v : Str)
    (hn : NameOK n) (hb : before ≠ []) (hcaret : '^' ∉ before) (heq : '=' ∉ after)
    (hq : quotedOK false (before ++ '=' :: after) = true)
    (hv : expandMacros m (macroValue m n) dep = .ok v) :
    ∃ r, expandMacros m ('$' :: '(' :: (n ++ ':' :: (before ++ '=' :: after ++ [')']))) dep = .ok r ∧
      Replaces before (after.filter (· != '^')) v r := by
  have h0 : expandMacros m [] dep = .ok [] := by simp [expandMacros]
  have h1 := (C02_forms m dep [] [] h0).2.2.2.2.1 n (before ++ '=' :: after) v hn (by simp) hq hv
  refine ⟨_, h1, ?_⟩
  rw [List.append_nil]
  unfold substEffect
  have h2 := parseSubst_plain before after [] hq heq hcaret
  rw [h2]
  exact replaceAll_spec _ _ _ hb

/-- The result is unique, so the above determines the expansion. -/
theorem C08_result_unique (b a s t t' : Str) (h : Replaces b a s t) (h' : Replaces b a s t') : t = t' :=
  replaces_det h h'

/-- With a caret in front of the `=` the replacement text is damaged: neither reading of `x^y` (three
characters, or the quoted `xy`) gives the observed result. -/
theorem C08_caret_in_before_breaks :
    expandMacros [(c!"A", { value := c!"x^y" })] c!"$(A:x^y=abcd)" = .ok c!"acd" ∧
    ¬ Replaces c!"x^y" c!"abcd" c!"x^y" c!"acd" ∧ ¬ Replaces c!"xy" c!"abcd" c!"x^y" c!"acd" := by
  refine ⟨by decide +kernel, ?_, ?_⟩
  · intro h
    have := replaces_det h (replaceAll_spec c!"x^y" c!"abcd" c!"x^y" (by simp))
    revert this; decide
  · intro h
    have := replaces_det h (replaceAll_spec c!"xy" c!"abcd" c!"x^y" (by simp))
    revert this; decide

/-- A caret quotes neither a caret (both disappear) nor an `=` (the last `=` is always taken for the separator). -/
theorem C08_caret_quotes_refuted :
    expandMacros [(c!"A", { value := c!"axb" })] c!"$(A:x=^^y)" = .ok c!"ayb" ∧
    expandMacros [(c!"A", { value := c!"axb" })] c!"$(A:x=u^=v)" = .ok c!"axb" := by decide +kernel

/-- An empty `before` inserts `after` at every position of the value. -/
theorem C08_empty_before (a v : Str) : replaceAll [] a v = a ++ v.flatMap (fun c => c :: a) := by
  simp only [replaceAll, List.isEmpty_nil, if_true]
  induction v with
  | nil => simp
  | cons c v ih => simp [ih]

example : expandMacros [(c!"SRC", { value := c!"a.cpp b.cpp" })] c!"$(SRC:.cpp=^).obj)!" =
    .ok c!"a).obj b).obj!" ∧ quotedOK false c!".cpp=^).obj" = true := by decide +kernel

/-! ### C09 environment of child processes -/

/-- Operations a makefile can perform. -/
def makefileOp : MacroOp → Prop
  | .set _ _ | .predefine _ _ | .undef _ => True
  | _ => False

/-- The documented behaviour ("If the macros exists and is an environment variable then the
corresponding environment variable is set to the new macro value", macrotable.cpp 120-125) does not
hold: no sequence of makefile assignments ever changes the environment of the child processes. -/
theorem C09_refuted_env_never_updated (ops : List MacroOp) : ∀ (t t' : MacroTable),
    (∀ op ∈ ops, makefileOp op) → runOps t ops = .ok t' → t'.env = t.env := by
  induction ops with
  | nil => intro t t' _ h; cases h; rfl
  | cons op ops ih =>
    intro t t' hops h
    obtain ⟨t1, h1, h⟩ := bind_ok h
    rw [ih t1 t' (fun o ho => hops o (by simp [ho])) h]
    have hm := hops op (by simp)
    cases op with
    | set a b => obtain ⟨_, _, _, h3, _⟩ := setImpl_ok (by simp) h1; exact h3
    | predefine a b => obtain ⟨_, _, _, h3, _⟩ := setImpl_ok (by simp) h1; exact h3
    | undef a => cases h1; rfl
    | environment _ _ _ => cases hm
    | commandLine _ _ => cases hm
    | commandLineImplicit _ _ => cases hm

/-- Concrete history: `PATH` comes from the environment, the makefile assigns it, the children still
get the old value. -/
theorem C09_refuted_witness :
    (runOps {} [.environment c!"PATH" c!"old" false, .set c!"PATH" c!"new"]).toOption.map
      (fun t => (macroValue t.macros c!"PATH", envLookup c!"PATH" t.env)) =
    some (c!"new", some c!"old") := by decide +kernel

end Jom.Props
