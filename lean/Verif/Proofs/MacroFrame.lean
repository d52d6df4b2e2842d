import Verif.Proofs.MacroEquiv

/-! Errors of well-formed texts, and the frame property of expansion. -/

namespace Jom
open Spec

/-- On texts whose reachable macro values are all well formed the only possible error is a cycle, and
the reported macro is on a cycle. -/
theorem expandU_error (m : Macros) (dep : Bool) (k : Nat) : ∀ (used : List Str) (segs : List Seg) (e : MacroErr),
    need m used (render segs) ≤ k → SegsWF dep segs →
    (∀ n, MReaches (macroValue m) dep (render segs) n → WellFormed dep (macroValue m n)) →
    expandU m dep used (render segs) = .error e →
    ∃ n, e = .cycle n ∧ MReaches (macroValue m) dep (render segs) n ∧
      (n ∈ used ∨ MReaches (macroValue m) dep (macroValue m n) n) := by
  induction k with
  | zero => intro used segs e hk; simp [need] at hk
  | succ k ih =>
    intro used segs e hk w hwf herr
    cases segs with
    | nil => simp [render] at herr
    | cons g rest =>
      have hr : render (g :: rest) = g.render ++ render rest := by simp [render]
      have wt := segsWF_tail w
      have hpos : 0 < g.render.length := by
        cases g <;> simp [Seg.render]
        rename_i p; cases p <;> simp
      have hlen : (render (g :: rest)).length = g.render.length + (render rest).length := by
        rw [hr]; simp
      have hnr : need m used (render rest) ≤ k := by
        simp only [need, hlen] at hk ⊢; omega
      have tailErr : ∀ e', expandU m dep used (render rest) = .error e' → ∃ n, e' = .cycle n ∧
          MReaches (macroValue m) dep (render (g :: rest)) n ∧
          (n ∈ used ∨ MReaches (macroValue m) dep (macroValue m n) n) := by
        intro e' he'
        obtain ⟨n, h1, h2, h3⟩ := ih used rest e' hnr wt (fun n hn => hwf n (reaches_of_tail w hn)) he'
        exact ⟨n, h1, reaches_of_tail w h2, h3⟩
      have nested : ∀ n ∈ g.refs, (∃ v, n ∉ used ∧ expandU m dep (n :: used) (macroValue m n) = .ok v) ∨
          ((n ∈ used ∨ ∃ e', expandU m dep (n :: used) (macroValue m n) = .error e') ∧
            ∀ e', (n ∈ used ∧ e' = .cycle n ∨ n ∉ used ∧ expandU m dep (n :: used) (macroValue m n) = .error e') →
            ∃ n, e' = .cycle n ∧ MReaches (macroValue m) dep (render (g :: rest)) n ∧
          (n ∈ used ∨ MReaches (macroValue m) dep (macroValue m n) n)) := by
        intro n hn
        have hrf : RefersTo dep (render (g :: rest)) n := ⟨g :: rest, w, rfl, g, by simp, hn⟩
        by_cases hnu : n ∈ used
        · right
          refine ⟨Or.inl hnu, ?_⟩
          rintro e' (⟨_, rfl⟩ | ⟨h, _⟩)
          · exact ⟨n, rfl, .direct hrf, Or.inl hnu⟩
          · exact absurd hnu h
        · cases hx : expandU m dep (n :: used) (macroValue m n) with
          | ok v => exact Or.inl ⟨v, hnu, rfl⟩
          | error e0 =>
            right
            refine ⟨Or.inr ⟨e0, rfl⟩, ?_⟩
            rintro e' (⟨h, _⟩ | ⟨_, h⟩)
            · exact absurd h hnu
            · cases h
              obtain ⟨vs, wv, ev⟩ := hwf n (.direct hrf)
              have hnv := need_value m used n hnu
              rw [← ev] at hx
              obtain ⟨k', h1, h2, h3⟩ := ih (n :: used) vs e0 (by
                rw [ev]
                have : unusedSize m used ≤ k - 1 ∧ 1 ≤ k := by
                  simp only [need, hlen] at hk; constructor <;> cases g <;> simp [Seg.refs] at hn <;>
                    simp [Seg.render] at hk <;> omega
                omega) wv (fun x hx => hwf x (.step hrf (by rw [← ev]; exact hx))) hx
              rw [ev] at h2
              refine ⟨k', h1, .step hrf h2, ?_⟩
              rcases h3 with h3 | h3
              · simp only [List.mem_cons] at h3
                rcases h3 with rfl | h3
                · exact Or.inr h2
                · exact Or.inl h3
              · exact Or.inr h3
      rw [hr] at herr
      have simple : ∀ f : Str → Str,
          (expandU m dep used (render rest) >>= fun r => Except.ok (f r)) = .error e →
          expandU m dep used (render rest) = .error e := by
        intro f h
        cases hx : expandU m dep used (render rest) with
        | ok v => rw [hx] at h; cases h
        | error e0 => rw [hx] at h; cases h; rfl
      have macroCase : ∀ n ∈ g.refs, ∀ f : Str → Str → Str,
          (if n ∈ used then .error (.cycle n)
           else (do
            let v ← expandU m dep (n :: used) (macroValue m n)
            let r ← expandU m dep used (render rest)
            .ok (f v r))) = Except.error e →
          ∃ n, e = .cycle n ∧ MReaches (macroValue m) dep (render (g :: rest)) n ∧
            (n ∈ used ∨ MReaches (macroValue m) dep (macroValue m n) n) := by
        intro n hn f h
        by_cases hnu : n ∈ used
        · rw [if_pos hnu] at h
          rcases nested n hn with ⟨v, hx, _⟩ | ⟨_, hx⟩
          · exact absurd hnu hx
          · cases h; exact hx _ (Or.inl ⟨hnu, rfl⟩)
        · rw [if_neg hnu] at h
          rcases nested n hn with ⟨v, _, hx⟩ | ⟨h0, hx⟩
          · rw [hx] at h
            exact tailErr e (simple (f v) h)
          · rcases h0 with h0 | ⟨e', he'⟩
            · exact absurd h0 hnu
            · rw [he'] at h
              cases h
              exact hx _ (Or.inr ⟨hnu, he'⟩)
      rcases segsWF_inv w with ⟨rfl, rfl⟩ | ⟨rfl, hdo, _⟩ | ⟨hnd, hg, _⟩
      · simp [render, Seg.render] at herr
      · have e1 : Seg.dollar.render ++ render rest = '$' :: '$' :: render rest := rfl
        rw [e1, expandU_dollar m dep used _ hdo] at herr
        exact tailErr e (simple _ herr)
      · cases g with
        | lit c =>
          have e1 : (Seg.lit c).render ++ render rest = c :: render rest := rfl
          rw [e1, expandU_lit m dep used c _ hg] at herr
          exact tailErr e (simple _ herr)
        | dollar => exact absurd rfl hnd
        | fileChar c =>
          have e1 : (Seg.fileChar c).render ++ render rest = '$' :: c :: render rest := rfl
          rw [e1, expandU_fileChar m dep used c _ hg] at herr
          exact tailErr e (simple _ herr)
        | fileParen t =>
          have e1 : (Seg.fileParen t).render ++ render rest = '$' :: '(' :: (t ++ ')' :: render rest) := by
            simp [Seg.render]
          rw [e1, expandU_fileParen m dep used t _ hg.1 hg.2] at herr
          exact tailErr e (simple _ herr)
        | depAt p =>
          simp only [Seg.WF] at hg
          subst hg
          cases p
          · have e1 : (Seg.depAt false).render ++ render rest = '$' :: '$' :: '@' :: render rest := rfl
            rw [e1, expandU_depAt] at herr
            exact tailErr e (simple _ herr)
          · have e1 : (Seg.depAt true).render ++ render rest = '$' :: '$' :: '(' :: '@' :: render rest := rfl
            rw [e1, expandU_depAtP] at herr
            exact tailErr e (simple _ herr)
        | char c =>
          have e1 : (Seg.char c).render ++ render rest = '$' :: c :: render rest := rfl
          rw [e1, expandU_char m dep used c _ hg] at herr
          exact macroCase [c] (by simp [Seg.refs]) (fun v r => v ++ r) herr
        | ref n =>
          have e1 : (Seg.ref n).render ++ render rest = '$' :: '(' :: (n ++ ')' :: render rest) := by
            simp [Seg.render]
          rw [e1, expandU_ref m dep used n _ hg] at herr
          exact macroCase n (by simp [Seg.refs]) (fun v r => v ++ r) herr
        | sub n st =>
          have e1 : (Seg.sub n st).render ++ render rest =
              '$' :: '(' :: (n ++ ':' :: (st ++ ')' :: render rest)) := by
            simp [Seg.render]
          obtain ⟨hn, heq, hq⟩ := hg
          obtain ⟨sub, hps, heff⟩ := parseSubst_stmt st (render rest) hq heq
          rw [e1, expandU_sub m dep used n _ hn (by simp), hps] at herr
          exact macroCase n (by simp [Seg.refs]) (fun v r => applySubst sub v ++ r) herr

/-! ### Frame -/

/-- `s` contains something that looks like an invocation of `n`. -/
def Spec.Mentions (s n : Str) : Prop :=
  ∃ x y, s = x ++ '$' :: '(' :: (n ++ ')' :: y) ∨ s = x ++ '$' :: '(' :: (n ++ ':' :: y) ∨
    (∃ c, n = [c] ∧ s = x ++ '$' :: c :: y)

theorem mentions_append {s n : Str} (x : Str) (h : Mentions s n) : Mentions (x ++ s) n := by
  obtain ⟨a, b, h⟩ := h
  refine ⟨x ++ a, b, ?_⟩
  rcases h with rfl | rfl | ⟨c, rfl, rfl⟩
  · left; simp
  · right; left; simp
  · right; right; exact ⟨c, rfl, by simp⟩

theorem mentions_cons {s n : Str} (c : Char) (h : Mentions s n) : Mentions (c :: s) n :=
  mentions_append [c] h

theorem mentions_drop {s n : Str} (k : Nat) (h : Mentions (s.drop k) n) : Mentions s n := by
  have := mentions_append (s.take k) h
  rwa [List.take_append_drop] at this

theorem parseSubst_rest {s : Str} {sub : Substitution} {rest : Str}
    (h : parseSubst s = .ok (sub, rest)) : ∃ k, rest = s.drop k := by
  unfold parseSubst at h
  split at h
  · simp only [Except.ok.injEq, Prod.mk.injEq] at h
    exact ⟨_, h.2.symm⟩
  · cases h

theorem expandF_frame (m m' : Macros) (S : Str → Prop) (dep : Bool)
    (hS : ∀ n, S n → macroValue m n = macroValue m' n ∧ ∀ k, Mentions (macroValue m n) k → S k)
    (f : Nat) : ∀ (used : List Str) (s : Str), (∀ n, Mentions s n → S n) →
      expandF m dep f used s = expandF m' dep f used s := by
  induction f with
  | zero => intros; rfl
  | succ f ih =>
    intro used s hs
    match s with
    | [] => rfl
    | [c] => rfl
    | c :: d :: s =>
      have hds : ∀ n, Mentions (d :: s) n → S n := fun n h => hs n (mentions_cons c h)
      have hss : ∀ n, Mentions s n → S n := fun n h => hds n (mentions_cons d h)
      unfold expandF
      by_cases hc : c = '$'
      · subst hc
        simp only [bne_self_eq_false, Bool.false_eq_true, if_false]
        by_cases hd : d = '('
        · subst hd
          simp only [beq_self_eq_true, if_true]
          cases hsp : splitClose s with
          | none => rfl
          | some ia =>
            obtain ⟨inner, after⟩ := ia
            obtain ⟨rfl, hin⟩ := splitClose_eq hsp
            have haf : ∀ n, Mentions after n → S n := fun n h =>
              hss n (mentions_append inner (mentions_cons ')' h))
            simp only []
            cases htw : inner.takeWhile (· != ':') with
            | nil => rfl
            | cons n0 ns =>
              simp only []
              have hdec : inner = (n0 :: ns) ++ inner.dropWhile (· != ':') := by
                rw [← htw, List.takeWhile_append_dropWhile]
              have hSn : S (n0 :: ns) := by
                apply hs
                cases hdw : inner.dropWhile (· != ':') with
                | nil =>
                  rw [hdw, List.append_nil] at hdec
                  exact ⟨[], after, Or.inl (by rw [← hdec]; rfl)⟩
                | cons col t =>
                  have hcol : col = ':' := by
                    have := List.head?_dropWhile_not (p := (· != ':')) inner
                    rw [hdw] at this
                    simpa using this
                  subst hcol
                  rw [hdw] at hdec
                  exact ⟨[], t ++ ')' :: after, Or.inr (Or.inl (by rw [hdec]; simp))⟩
              have hnest : expandF m dep f ((n0 :: ns) :: used) (macroValue m (n0 :: ns)) =
                  expandF m' dep f ((n0 :: ns) :: used) (macroValue m' (n0 :: ns)) := by
                rw [← (hS _ hSn).1]
                exact ih _ _ (hS _ hSn).2
              rw [ih used after haf, hnest]
              have hsub : (parseSubst ((inner ++ ')' :: after).drop ((n0 :: ns).length + 1)) >>= fun x =>
                  expandF m dep f used x.2 >>= fun r => .ok (x.1, r)) =
                  (parseSubst ((inner ++ ')' :: after).drop ((n0 :: ns).length + 1)) >>= fun x =>
                  expandF m' dep f used x.2 >>= fun r => .ok (x.1, r)) := by
                cases hp : parseSubst ((inner ++ ')' :: after).drop ((n0 :: ns).length + 1)) with
                | error e => rfl
                | ok x =>
                  obtain ⟨sub, rest⟩ := x
                  obtain ⟨k, hk⟩ := parseSubst_rest hp
                  show (expandF m dep f used rest >>= _) = (expandF m' dep f used rest >>= _)
                  rw [ih used rest ?_]
                  intro n h
                  rw [hk] at h
                  exact hss n (mentions_drop _ (mentions_drop _ h))
              congr 1
              congr 1
              cases expandF m' dep f ((n0 :: ns) :: used) (macroValue m' (n0 :: ns)) with
              | error e => rfl
              | ok v =>
                show (if inner.contains ':' then _ else _) = (if inner.contains ':' then _ else _)
                congr 1
                revert hsub
                cases parseSubst ((inner ++ ')' :: after).drop ((n0 :: ns).length + 1)) with
                | error e => intro _; rfl
                | ok x =>
                  obtain ⟨sub, rest⟩ := x
                  intro hsub
                  show (expandF m dep f used rest >>= _) = (expandF m' dep f used rest >>= _)
                  have hsub : (expandF m dep f used rest >>= fun r => .ok (sub, r)) =
                    (expandF m' dep f used rest >>= fun r => .ok (sub, r)) := hsub
                  have : expandF m dep f used rest = expandF m' dep f used rest := by
                    cases h1 : expandF m dep f used rest <;> cases h2 : expandF m' dep f used rest <;>
                      rw [h1, h2] at hsub <;> simp [bind, Except.bind] at hsub <;> simp [hsub]
                  rw [this]
        · have : (d == '(') = false := by simpa using hd
          simp only [this, Bool.false_eq_true, if_false]
          rw [ih used s hss]
          split
          · split
            · rw [ih used _ (fun n h => hss n (mentions_cons _ h))]
            · rw [ih used _ (fun n h => hss n (mentions_cons _ (mentions_cons _ h)))]
            · rfl
          · have hSn : isLetterOrNumber d = true → expandF m dep f ([d] :: used) (macroValue m [d]) =
                  expandF m' dep f ([d] :: used) (macroValue m' [d]) := by
              intro _
              have hSd : S [d] := hs _ ⟨[], s, Or.inr (Or.inr ⟨d, rfl, rfl⟩)⟩
              rw [← (hS _ hSd).1]
              exact ih _ _ (hS _ hSd).2
            split
            · rename_i hl; rw [hSn hl]
            · rfl
      · have : (c != '$') = true := by simpa using hc
        simp only [this, if_true]
        rw [ih used (d :: s) hds]

theorem expandMacros_frame (m m' : Macros) (S : Str → Prop) (dep : Bool) (s : Str)
    (hS : ∀ n, S n → macroValue m n = macroValue m' n ∧ ∀ k, Mentions (macroValue m n) k → S k)
    (hs : ∀ n, Mentions s n → S n) : expandMacros m s dep = expandMacros m' s dep := by
  unfold expandMacros
  have h1 := expandF_eq_expandU m dep (need m [] s + need m' [] s) [] s (by omega)
  have h2 := expandF_eq_expandU m' dep (need m [] s + need m' [] s) [] s (by omega)
  rw [← h1, ← h2]
  exact expandF_frame m m' S dep hS _ [] s hs

end Jom
