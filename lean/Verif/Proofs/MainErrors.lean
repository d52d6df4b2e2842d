import Verif.Proofs.MainMacros
import Verif.Spec.Main

/-! Which command lines are rejected. -/

namespace Jom.Cmd
open Spec.Cmd Spec Spec.Main Jom.Main

theorem ebind_error {ε α β : Type} {x : Except ε α} {f : α → Except ε β} {e : ε} (h : (x >>= f) = .error e) :
    x = .error e ∨ ∃ a, x = .ok a ∧ f a = .error e := by
  cases x with
  | error e' => exact .inl (by cases h; rfl)
  | ok a => exact .inr ⟨a, rfl, h⟩

theorem fileArg_error {arg : Str} {rest : List Str} {e : Err} (h : fileArg arg rest = .error e) : e = .usage := by
  unfold fileArg at h
  split at h
  · split at h
    · cases h; rfl
    · cases h
  · cases h

theorem jobsArg_error {arg : Str} {rest : List Str} {e : Err} (h : jobsArg arg rest = .error e) : e = .usage := by
  unfold jobsArg at h
  split at h
  · split at h
    · cases h; rfl
    · cases h
  · cases h

theorem letter_error {st : St} {ch : Char} {arg : Str} {rest : List Str} {e : Err} (h : letter st ch arg rest = .error e) : e = .usage := by
  have hne := addFlag_ne_nil st ch
  unfold addFlag at hne
  unfold letter at h
  simp only at h
  split at h
  · rcases ebind_error h with h | ⟨a, _, h⟩
    · exact fileArg_error h
    · cases h
  · split at h
    · rcases ebind_error h with h | ⟨a, _, h⟩
      · exact fileArg_error h
      · cases h
    · split at h
      · rcases ebind_error h with h | ⟨a, _, h⟩
        · exact jobsArg_error h
        · obtain ⟨n, a, r⟩ := a
          simp only at h
          rcases ebind_error h with h | ⟨a, _, h⟩
          · unfold setJobs at h
            split at h
            · cases h; rfl
            · split at h
              · cases h; rfl
              · split at h
                · rename_i hl
                  exact absurd (List.getLast?_eq_none_iff.1 hl) hne
                · cases h
          · cases h
      · split at h
        · cases h
        · cases h; rfl

theorem handleLoop_error : ∀ (n : Nat) {st : St} {arg : Str} {rest : List Str} {e : Err}, handleLoop n st arg rest = .error e → e = .usage := by
  intro n
  induction n with
  | zero => intro st arg rest e h; cases h
  | succ n ih =>
    intro st arg rest e h
    unfold handleLoop at h
    split at h
    · cases h
    · simp only at h
      split at h
      · cases h
      · rcases ebind_error h with h | ⟨a, _, h⟩
        · exact letter_error h
        · exact ih h

theorem macroArg_error {l : Line} {arg : Str} {idx : Nat} {e : Err} (h : macroArg l arg idx = .error e) :
    (e = .invalidMacroName ∧ isMacroNameValid (trimmed (arg.take idx)) = false) ∨ (∃ m, e = .macroError m) ∧ '$' ∈ arg := by
  unfold macroArg at h
  simp only at h
  split at h
  · rename_i hval
    cases h; exact .inl ⟨rfl, by simpa using hval⟩
  · rename_i hval
    have hval : isMacroNameValid (trimmed (arg.take idx)) = true := by simpa using hval
    have hdef : ∀ (t : MacroTable) (n : Str) (m : MacroErr), '$' ∉ n → '$' ∉ arg →
        (defineCommandLineMacroValue t n (trimLeft (arg.drop (idx + 1))) ≠ .error m ∧
          defineImplicitCommandLineMacroValue t n (trimLeft (arg.drop (idx + 1))) ≠ .error m) := by
      intro t n m hn ha
      have hv : '$' ∉ trimLeft (arg.drop (idx + 1)) := by
        intro hm
        exact ha (List.drop_subset _ _ ((List.dropWhile_suffix _).subset hm))
      have himpl : ∀ src, ∃ t', defineCommandLineImpl t n (trimLeft (arg.drop (idx + 1))) src = .ok t' := by
        intro src
        unfold defineCommandLineImpl internalSet
        rw [expandMacros_plain _ _ _ hn]
        by_cases hn : isMacroNameValid n = true
        · simp only [bind, Except.bind, hn, Bool.not_true, Bool.false_eq_true, if_false]
          exact ⟨_, rfl⟩
        · simp only [bind, Except.bind, hn, Bool.not_false, if_true]
          exact ⟨_, rfl⟩
      constructor
      · unfold defineCommandLineMacroValue
        obtain ⟨t', ht⟩ := himpl .commandLine
        rw [ht]
        simp only [bind, Except.bind, expandMacros_plain _ _ _ hv]
        intro h; cases h
      · unfold defineImplicitCommandLineMacroValue
        obtain ⟨t', ht⟩ := himpl .commandLineImplicit
        rw [ht]
        simp only [bind, Except.bind, expandMacros_plain _ _ _ hv]
        intro h; cases h
    have hd := valid_noDollar hval
    refine .inr ?_
    rcases ebind_error h with h | ⟨l1, _, h⟩
    · split at h
      · cases h
      · rcases ebind_error h with h | ⟨a, _, h⟩
        · cases hx : defineCommandLineMacroValue l.table (trimmed (arg.take idx)) (trimLeft (arg.drop (idx + 1))) with
          | ok t => rw [hx] at h; cases h
          | error m =>
            rw [hx] at h
            cases h
            refine ⟨⟨m, rfl⟩, ?_⟩
            exact Classical.byContradiction fun hc => (hdef _ _ m hd hc).1 hx
        · cases h
    · split at h
      · rcases ebind_error h with h | ⟨a, _, h⟩
        · cases hx : defineImplicitCommandLineMacroValue l1.table (toUpper (trimmed (arg.take idx))) (trimLeft (arg.drop (idx + 1))) with
          | ok t => rw [hx] at h; cases h
          | error m =>
            rw [hx] at h
            cases h
            refine ⟨⟨m, rfl⟩, ?_⟩
            exact Classical.byContradiction fun hc => (hdef _ _ m (noDollar_upper hd) hc).2 hx
        · cases h
      · cases h

theorem argLoop_error : ∀ (n : Nat) {l : Line} {args : List Str} {e : Err}, argLoop n l args = .error e →
    e = .usage ∨ e = .invalidMacroName ∨ ((∃ m, e = .macroError m) ∧ ∃ a ∈ args, '$' ∈ a) ∨ (e = .fault ∧ [] ∈ args) := by
  intro n
  induction n with
  | zero => intro l args e h; cases args <;> cases h
  | succ n ih =>
    intro l args e h
    cases args with
    | nil => cases h
    | cons arg rest =>
      cases arg with
      | nil => cases h; exact .inr (.inr (.inr ⟨rfl, by simp⟩))
      | cons c body =>
        by_cases hc : c = '-' ∨ c = '/'
        · rw [argLoop_opt hc] at h
          rcases ebind_error h with h | ⟨⟨st, r⟩, hh, h⟩
          · exact .inl (handleLoop_error _ h)
          · obtain ⟨items, more, hb, he⟩ := body_handleOption hh
            rcases ih h with h | h | ⟨h, a, ha, hd⟩ | ⟨h, ha⟩
            · exact .inl h
            · exact .inr (.inl h)
            · exact .inr (.inr (.inl ⟨h, a, by simp [he, ha], hd⟩))
            · exact .inr (.inr (.inr ⟨h, by simp [he, ha]⟩))
        · rw [not_or] at hc
          rw [argLoop_plain hc.1 hc.2] at h
          rcases ebind_error h with h | ⟨l1, hh, h⟩
          · unfold plainStep at h
            split at h
            · rcases macroArg_error h with ⟨h, _⟩ | ⟨h, hd⟩
              · exact .inr (.inl h)
              · exact .inr (.inr (.inl ⟨h, _, by simp, hd⟩))
            · cases h
          · rcases ih h with h | h | ⟨h, a, ha, hd⟩ | ⟨h, ha⟩
            · exact .inl h
            · exact .inr (.inl h)
            · exact .inr (.inr (.inl ⟨h, a, by simp [ha], hd⟩))
            · exact .inr (.inr (.inr ⟨h, by simp [ha]⟩))

/-- An accepted command line is correct. -/
theorem argLoop_correct {l l' : Line} {args : List Str} (hr : Raw l.st.jobs [] l.st) (h : argLoop args.length l args = .ok l') :
    ∃ items plain, Correct items plain args := by
  obtain ⟨items, plain, ha⟩ := run_args _ _ _ _ (Nat.le_refl _) h
  refine ⟨items, plain, ha, ?_, ?_⟩
  · have := raw_steps hr (args_run ha _ _ _ (Nat.le_refl _) h)
    simpa using this.numbers
  · have : ∀ p ∈ plain, '=' ∈ p → ∃ n v, Defines p n v := by
      have := args_inv ha (I := fun rest l => (∀ p ∈ plain, p ∉ rest → '=' ∈ p → ∃ n v, Defines p n v))
        (fun _ _ _ h => h)
        (fun q rest l l' hi hq => by
          intro p hp hn he
          by_cases e : p = q
          · subst e
            unfold plainStep at hq
            split at hq
            · rename_i idx hidx
              obtain ⟨hval, _⟩ := macroArg_ok rfl rfl hq
              exact ⟨_, _, defines_iff.2 ⟨idx, hidx, rfl, hval, rfl⟩⟩
            · rename_i hidx
              exact absurd he (indexOf_none hidx)
          · exact hi p hp (by simp [e, hn]) he)
        _ _ _ (Nat.le_refl _) h (fun p hp hn => absurd hp hn)
      intro p hp
      exact this p hp (by simp)
    exact this

/-- A correct command line is accepted, unless a macro cannot be expanded. -/
theorem argLoop_accepts {items : List Item} {plain args : List Str} (ha : Args items plain args) :
    (∀ n ∈ jobNumbers items, ∃ v, JobCount n v) → (∀ p ∈ plain, '=' ∈ p → ∃ n v, Defines p n v) →
    ∀ (n : Nat) (l : Line), args.length ≤ n → (∃ l', argLoop n l args = .ok l') ∨ ∃ m, argLoop n l args = .error (.macroError m) := by
  induction ha with
  | nil => intro _ _ n l _; exact .inl ⟨l, argLoop_nil n l⟩
  | @opt d body items items' more plain rest hd hb _ ih =>
    intro hj hp n l hn
    obtain ⟨n, rfl⟩ : ∃ k, n = k + 1 := ⟨n - 1, by simp at hn; omega⟩
    simp only [List.length_cons, List.length_append] at hn
    have hj1 : ∀ n ∈ jobNumbers items, ∃ v, JobCount n v := by
      intro m hm; apply hj m; simp only [jobNumbers, List.filterMap_append, List.mem_append]; exact .inl hm
    have hj2 : ∀ n ∈ jobNumbers items', ∃ v, JobCount n v := by
      intro m hm; apply hj m; simp only [jobNumbers, List.filterMap_append, List.mem_append]; exact .inr hm
    obtain ⟨s, hs⟩ := applyItems_ok (st := l.st) (body_letters hb) hj1
    rw [argLoop_opt hd, handleOption_body hb, hs]
    exact ih hj2 hp n { l with st := s } (by omega)
  | @plain c a items plain rest h1 h2 _ ih =>
    intro hj hp n l hn
    obtain ⟨n, rfl⟩ : ∃ k, n = k + 1 := ⟨n - 1, by simp at hn; omega⟩
    rw [argLoop_plain h1 h2]
    cases hs : plainStep l (c :: a) with
    | ok l1 => exact ih hj (fun p h => hp p (by simp [h])) n l1 (by simpa using hn)
    | error e =>
      refine .inr ?_
      unfold plainStep at hs
      split at hs
      · rename_i idx hidx
        have hmem : '=' ∈ c :: a := by
          obtain ⟨e, _⟩ := indexOf_eq hidx
          rw [e]; simp
        obtain ⟨n', v', hdef⟩ := hp _ (by simp) hmem
        obtain ⟨idx', hi', hn', hval, _⟩ := defines_iff.1 hdef
        rw [hidx] at hi'
        cases hi'
        rw [hn'] at hval
        rcases macroArg_error hs with ⟨_, h⟩ | ⟨⟨m, rfl⟩, _⟩
        · rw [hval] at h; cases h
        · exact ⟨m, rfl⟩
      · cases hs

end Jom.Cmd
