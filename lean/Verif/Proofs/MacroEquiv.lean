import Verif.Proofs.MacroSem

/-! Helper lemmas: `expandU` computes exactly the big-step semantics. -/

namespace Jom
open Spec

theorem magicEscape_eq : magicEscape = bom := rfl

theorem segsWF_cons {dep : Bool} {g : Seg} {rest : List Seg} (hd : g ≠ .dollar) (hg : g.WF dep)
    (hr : SegsWF dep rest) : SegsWF dep (g :: rest) := by
  unfold SegsWF
  split
  · trivial
  · trivial
  · rename_i h; simp only [List.cons.injEq] at h; exact absurd h.1 hd
  · rename_i h; simp only [List.cons.injEq] at h; rw [← h.1, ← h.2]; exact ⟨hg, hr⟩

theorem segsWF_inv {dep : Bool} {g : Seg} {rest : List Seg} (h : SegsWF dep (g :: rest)) :
    (g = .lit '$' ∧ rest = []) ∨ (g = .dollar ∧ dollarOK dep (render rest) ∧ SegsWF dep rest) ∨
      (g ≠ .dollar ∧ g.WF dep ∧ SegsWF dep rest) := by
  unfold SegsWF at h
  split at h
  · rename_i h'; simp at h'
  · rename_i h'; simp only [List.cons.injEq] at h'; exact Or.inl ⟨h'.1, h'.2⟩
  · rename_i h'; simp only [List.cons.injEq] at h'; rw [← h'.2] at h; exact Or.inr (Or.inl ⟨h'.1, h.1, h.2⟩)
  · rename_i hn h'; simp only [List.cons.injEq] at h'; rw [← h'.1, ← h'.2] at h
    refine Or.inr (Or.inr ⟨?_, h.1, h.2⟩)
    intro e
    exact hn (by rw [← h'.1, e])

theorem Spec.Denotes.mono {val : Str → Str} {eff : Str → Str → Str} {dep : Bool} {h : Nat} {segs : List Seg}
    {r : Str} (H : Denotes val eff dep h segs r) : ∀ h', h ≤ h' → Denotes val eff dep h' segs r := by
  induction H with
  | nil => intros; exact .nil
  | lit _ ih => intro h' hh; exact .lit (ih h' hh)
  | dollar _ ih => intro h' hh; exact .dollar (ih h' hh)
  | char w e _ _ ih1 ih2 =>
    intro h' hh
    obtain ⟨k, rfl⟩ : ∃ k, h' = k + 1 := ⟨h' - 1, by omega⟩
    exact .char w e (ih1 k (by omega)) (ih2 _ hh)
  | ref w e _ _ ih1 ih2 =>
    intro h' hh
    obtain ⟨k, rfl⟩ : ∃ k, h' = k + 1 := ⟨h' - 1, by omega⟩
    exact .ref w e (ih1 k (by omega)) (ih2 _ hh)
  | sub w e _ _ ih1 ih2 =>
    intro h' hh
    obtain ⟨k, rfl⟩ : ∃ k, h' = k + 1 := ⟨h' - 1, by omega⟩
    exact .sub w e (ih1 k (by omega)) (ih2 _ hh)
  | fileChar _ ih => intro h' hh; exact .fileChar (ih h' hh)
  | fileParen _ ih => intro h' hh; exact .fileParen (ih h' hh)
  | depAt _ ih => intro h' hh; exact .depAt (ih h' hh)

theorem bind_ok {α β : Type} {x : Except MacroErr α} {g : α → Except MacroErr β} {r : β}
    (h : (x >>= g) = .ok r) : ∃ v, x = .ok v ∧ g v = .ok r := by
  cases x with
  | error e => cases h
  | ok v => exact ⟨v, rfl, h⟩

/-- Every text is empty, a single character, or starts with one of the following. -/
theorem expandU_sound (m : Macros) (dep : Bool) (k : Nat) : ∀ (used : List Str) (s r : Str),
    need m used s ≤ k → expandU m dep used s = .ok r →
    Expands (macroValue m) substEffect dep s r := by
  induction k with
  | zero => intro used s r hk; simp [need] at hk
  | succ k ih =>
    intro used s r hk h
    match s, h with
    | [], h =>
      simp only [expandU_nil, Except.ok.injEq] at h
      subst h
      exact ⟨[], 0, by simp [SegsWF], rfl, .nil⟩
    | c :: s, h =>
      by_cases hc : c = '$'
      · subst hc
        match s, h with
        | [], h =>
          simp only [expandU_single, Except.ok.injEq] at h
          subst h
          exact ⟨[.lit '$'], 0, by simp [SegsWF], rfl, .lit .nil⟩
        | d :: s, h =>
          simp only [need, List.length_cons] at hk
          by_cases hd1 : d = '('
          · subst hd1
            by_cases hp : ')' ∈ s
            · obtain ⟨inner, after, rfl, hin⟩ := List.eq_append_cons_of_mem hp
              simp only [List.length_append, List.length_cons] at hk
              cases htw : inner.takeWhile (· != ':') with
              | nil => rw [expandU_noName m dep used inner after hin htw] at h; cases h
              | cons n0 ns =>
                have hdec : inner = (n0 :: ns) ++ inner.dropWhile (· != ':') := by
                  rw [← htw, List.takeWhile_append_dropWhile]
                have hn0 : ':' ∉ (n0 :: ns) := by
                  rw [← htw]
                  intro hm
                  have := List.all_takeWhile (l := inner) (p := (· != ':'))
                  rw [List.all_eq_true] at this
                  have := this _ hm
                  simp at this
                have hpn : ')' ∉ (n0 :: ns) := by
                  intro hm; apply hin; rw [hdec]; exact List.mem_append_left _ hm
                by_cases hf : n0 ∈ fileStart
                · have hx : ∃ c r, inner = c :: r ∧ c ∈ fileStart := ⟨n0, _, by rw [hdec]; rfl, hf⟩
                  rw [expandU_fileParen m dep used inner after hx hin] at h
                  obtain ⟨v, hv, h⟩ := bind_ok h
                  simp only [Except.ok.injEq] at h
                  subst h
                  obtain ⟨segs, hh, w, e, D⟩ := ih used after v (by simp [need]; omega) hv
                  exact ⟨.fileParen inner :: segs, hh,
                    segsWF_cons (by simp) ⟨hx, hin⟩ w,
                    by simp [render, Seg.render] at e ⊢; exact e, .fileParen D⟩
                · have hnok : NameOK (n0 :: ns) := ⟨⟨n0, ns, rfl, hf⟩, hn0, hpn⟩
                  cases hdw : inner.dropWhile (· != ':') with
                  | nil =>
                    rw [hdw, List.append_nil] at hdec
                    subst hdec
                    rw [expandU_ref m dep used (n0 :: ns) after hnok] at h
                    split at h
                    · cases h
                    · rename_i hu
                      obtain ⟨v, hv, h⟩ := bind_ok h
                      obtain ⟨r', hr, h⟩ := bind_ok h
                      simp only [Except.ok.injEq] at h
                      subst h
                      have hnv := need_value m used _ hu
                      obtain ⟨vsegs, h1, w1, e1, D1⟩ := ih _ _ _ (by omega) hv
                      obtain ⟨segs, h2, w2, e2, D2⟩ := ih used after r' (by simp [need]; omega) hr
                      refine ⟨.ref (n0 :: ns) :: segs, max h1 h2 + 1,
                        segsWF_cons (by simp) hnok w2,
                        by simp [render, Seg.render] at e2 ⊢; exact e2, ?_⟩
                      exact .ref w1 e1 (D1.mono _ (by omega)) (D2.mono _ (by omega))
                  | cons col t =>
                    have hcol : col = ':' := by
                      have := List.head?_dropWhile_not (p := (· != ':')) inner
                      rw [hdw] at this
                      simpa using this
                    subst hcol
                    rw [hdw] at hdec
                    subst hdec
                    have happ : (n0 :: ns) ++ ':' :: t ++ ')' :: after =
                        (n0 :: ns) ++ ':' :: (t ++ ')' :: after) := by simp
                    rw [happ, expandU_sub m dep used (n0 :: ns) _ hnok (by simp)] at h
                    split at h
                    · cases h
                    · rename_i hu
                      obtain ⟨v, hv, h⟩ := bind_ok h
                      obtain ⟨⟨sub, rest⟩, hp', h⟩ := bind_ok h
                      obtain ⟨r', hr, h⟩ := bind_ok h
                      simp only [Except.ok.injEq] at h
                      subst h
                      obtain ⟨st, hst, hq, heq⟩ := parseSubst_ok hp'
                      obtain ⟨sub', hsub, heff⟩ := parseSubst_stmt st rest hq heq
                      rw [← hst, hp'] at hsub
                      simp only [Except.ok.injEq, Prod.mk.injEq, and_true] at hsub
                      subst hsub
                      have hlen := congrArg List.length hst
                      simp only [List.length_append, List.length_cons] at hlen
                      have hnv := need_value m used _ hu
                      obtain ⟨vsegs, h1, w1, e1, D1⟩ := ih _ _ _ (by omega) hv
                      obtain ⟨segs, h2, w2, e2, D2⟩ := ih used rest r'
                        (by simp [need] at hk ⊢; omega) hr
                      refine ⟨.sub (n0 :: ns) st :: segs, max h1 h2 + 1,
                        segsWF_cons (by simp) ⟨hnok, heq, hq⟩ w2, ?_, ?_⟩
                      · rw [happ, hst]
                        simp [render, Seg.render] at e2 ⊢; exact e2
                      · rw [heff]
                        exact .sub w1 e1 (D1.mono _ (by omega)) (D2.mono _ (by omega))
            · rw [expandU_noClosing m dep used s hp] at h; cases h
          · by_cases hd2 : d = '$'
            · subst hd2
              by_cases hdo : dollarOK dep s
              · rw [expandU_dollar m dep used s hdo] at h
                obtain ⟨r', hr, h⟩ := bind_ok h
                simp only [Except.ok.injEq] at h
                subst h
                obtain ⟨segs, h2, w2, e2, D2⟩ := ih used s r' (by simp [need]; omega) hr
                refine ⟨.dollar :: segs, h2, ?_, by simp [render, Seg.render] at e2 ⊢; exact e2, .dollar D2⟩
                simp only [SegsWF, e2]
                exact ⟨hdo, w2⟩
              · unfold dollarOK at hdo
                simp only [Classical.not_imp] at hdo
                obtain ⟨rfl, hdo⟩ := hdo
                by_cases hA : ∃ r, s = '@' :: r
                · obtain ⟨s', rfl⟩ := hA
                  rw [expandU_depAt] at h
                  obtain ⟨r', hr, h⟩ := bind_ok h
                  simp only [Except.ok.injEq] at h
                  subst h
                  simp only [List.length_cons] at hk
                  obtain ⟨segs, h2, w2, e2, D2⟩ := ih used s' r' (by simp [need]; omega) hr
                  exact ⟨.depAt false :: segs, h2, segsWF_cons (by simp) rfl w2,
                    by simp [render, Seg.render] at e2 ⊢; exact e2, .depAt D2⟩
                · have hB : ∃ r, s = '(' :: '@' :: r := by
                    by_cases hB : ∃ r, s = '(' :: '@' :: r
                    · exact hB
                    · exfalso
                      apply hdo
                      exact ⟨fun r e => hA ⟨r, e⟩, fun r e => hB ⟨r, e⟩⟩
                  obtain ⟨s', rfl⟩ := hB
                  rw [expandU_depAtP] at h
                  obtain ⟨r', hr, h⟩ := bind_ok h
                  simp only [Except.ok.injEq] at h
                  subst h
                  simp only [List.length_cons] at hk
                  obtain ⟨segs, h2, w2, e2, D2⟩ := ih used s' r' (by simp [need]; omega) hr
                  exact ⟨.depAt true :: segs, h2, segsWF_cons (by simp) rfl w2,
                    by simp [render, Seg.render] at e2 ⊢; exact e2, .depAt D2⟩
            · by_cases hl : isLetterOrNumber d = true
              · rw [expandU_char m dep used d s hl] at h
                split at h
                · cases h
                · rename_i hu
                  obtain ⟨v, hv, h⟩ := bind_ok h
                  obtain ⟨r', hr, h⟩ := bind_ok h
                  simp only [Except.ok.injEq] at h
                  subst h
                  have hnv := need_value m used _ hu
                  obtain ⟨vsegs, h1, w1, e1, D1⟩ := ih _ _ _ (by omega) hv
                  obtain ⟨segs, h2, w2, e2, D2⟩ := ih used s r' (by simp [need]; omega) hr
                  refine ⟨.char d :: segs, max h1 h2 + 1, segsWF_cons (by simp) hl w2,
                    by simp [render, Seg.render] at e2 ⊢; exact e2, ?_⟩
                  exact .char w1 e1 (D1.mono _ (by omega)) (D2.mono _ (by omega))
              · by_cases hf : d ∈ fileStart
                · rw [expandU_fileChar m dep used d s hf] at h
                  obtain ⟨r', hr, h⟩ := bind_ok h
                  simp only [Except.ok.injEq] at h
                  subst h
                  obtain ⟨segs, h2, w2, e2, D2⟩ := ih used s r' (by simp [need]; omega) hr
                  exact ⟨.fileChar d :: segs, h2, segsWF_cons (by simp) hf w2,
                    by simp [render, Seg.render] at e2 ⊢; exact e2, .fileChar D2⟩
                · rw [expandU_invalid m dep used d s hd1 hd2 (by simpa using hl) hf] at h
                  cases h
      · rw [expandU_lit m dep used c s hc] at h
        obtain ⟨r', hr, h⟩ := bind_ok h
        simp only [Except.ok.injEq] at h
        subst h
        simp only [need, List.length_cons] at hk
        obtain ⟨segs, h2, w2, e2, D2⟩ := ih used s r' (by simp [need]; omega) hr
        exact ⟨.lit c :: segs, h2, segsWF_cons (by simp) hc w2,
          by simp [render, Seg.render] at e2 ⊢; exact e2, .lit D2⟩

/-! ### Unambiguity of the segment syntax -/

/-- First segment of a text (proof device). -/
def parse1 (dep : Bool) : Str → Option (Seg × Str)
  | [] => none
  | c :: s =>
    if c ≠ '$' then some (.lit c, s)
    else match s with
      | [] => some (.lit '$', [])
      | d :: s =>
        if d = '(' then
          match splitClose s with
          | none => none
          | some (inner, after) =>
            match inner.takeWhile (· != ':') with
            | [] => none
            | n0 :: ns =>
              if n0 ∈ fileStart then some (.fileParen inner, after)
              else if ':' ∈ inner then
                match parseSubst (s.drop ((n0 :: ns).length + 1)) with
                | .ok (_, rest) =>
                  let t := s.drop ((n0 :: ns).length + 1)
                  some (.sub (n0 :: ns) (t.take (t.length - (rest.length + 1))), rest)
                | .error _ => none
              else some (.ref (n0 :: ns), after)
        else if d = '$' then
          match dep, s with
          | true, '@' :: s' => some (.depAt false, s')
          | true, '(' :: '@' :: s' => some (.depAt true, s')
          | _, _ => some (.dollar, s)
        else if isLetterOrNumber d = true then some (.char d, s)
        else some (.fileChar d, s)

theorem parse1_render {dep : Bool} {g : Seg} {rest : List Seg} (h : SegsWF dep (g :: rest)) :
    parse1 dep (render (g :: rest)) = some (g, render rest) := by
  have hr : render (g :: rest) = g.render ++ render rest := by simp [render]
  rw [hr]
  rcases segsWF_inv h with ⟨rfl, rfl⟩ | ⟨rfl, hd, hw⟩ | ⟨hd, hg, _⟩
  · simp [render, Seg.render, parse1]
  · simp only [Seg.render, List.cons_append, List.nil_append, parse1]
    have : ('$' = '(') = False := by simp
    simp only [ne_eq, not_true_eq_false, if_false, this, if_true]
    split
    · clear hw; rename_i heq; exact absurd heq ((hd rfl).1 _)
    · clear hw; rename_i heq; exact absurd heq ((hd rfl).2 _)
    · rfl
  · cases g with
    | lit c => simp only [Seg.WF] at hg; simp [Seg.render, parse1, hg]
    | dollar => exact absurd rfl hd
    | char c =>
      simp only [Seg.WF] at hg
      have := letter_not_special hg
      simp [Seg.render, parse1, this.1, this.2, hg]
    | fileChar c =>
      have h1 : c ≠ '(' ∧ c ≠ '$' ∧ isLetterOrNumber c = false := by
        simp only [Seg.WF, fileStart, List.mem_cons, List.not_mem_nil, or_false] at hg
        rcases hg with rfl | rfl | rfl | rfl <;> decide
      simp [Seg.render, parse1, h1.1, h1.2.1, h1.2.2]
    | depAt p =>
      simp only [Seg.WF] at hg
      subst hg
      cases p <;> simp [Seg.render, parse1]
    | ref n =>
      obtain ⟨⟨c, r, rfl, hc⟩, hcol, hpar⟩ := hg
      have e : (Seg.ref (c :: r)).render ++ render rest = '$' :: '(' :: ((c :: r) ++ ')' :: render rest) := by
        simp [Seg.render]
      rw [e]
      simp only [parse1, splitClose_append _ hpar, takeWhile_noColon' hcol, hc, hcol]
      simp
    | fileParen t =>
      obtain ⟨⟨c, r, rfl, hc⟩, hpar⟩ := hg
      have e : (Seg.fileParen (c :: r)).render ++ render rest =
          '$' :: '(' :: ((c :: r) ++ ')' :: render rest) := by
        simp [Seg.render]
      have hcol : c ≠ ':' := by rintro rfl; simp [fileStart] at hc
      have htw : (c :: r).takeWhile (· != ':') = c :: r.takeWhile (· != ':') := by simp [hcol]
      rw [e]
      simp only [parse1, splitClose_append _ hpar, htw, hc]
      simp
    | sub n st =>
      obtain ⟨hn, heq, hq⟩ := hg
      obtain ⟨⟨c, r, rfl, hc⟩, hcol, hpar⟩ := hn
      have e : (Seg.sub (c :: r) st).render ++ render rest =
          '$' :: '(' :: ((c :: r) ++ ':' :: (st ++ ')' :: render rest)) := by
        simp [Seg.render]
      rw [e]
      obtain ⟨t1, t2, ht, ht1⟩ := List.eq_append_cons_of_mem
        (show ')' ∈ st ++ ')' :: render rest by simp)
      have hs : splitClose ((c :: r) ++ ':' :: (st ++ ')' :: render rest)) =
          some ((c :: r) ++ ':' :: t1, t2) := by
        rw [ht, show (c :: r) ++ ':' :: (t1 ++ ')' :: t2) = ((c :: r) ++ ':' :: t1) ++ ')' :: t2 by simp]
        apply splitClose_append
        simp only [List.mem_append, List.mem_cons, not_or]
        simp only [List.mem_cons, not_or] at hpar
        exact ⟨hpar, by decide, ht1⟩
      have hdrop : ((c :: r) ++ ':' :: (st ++ ')' :: render rest)).drop ((c :: r).length + 1) =
          st ++ ')' :: render rest := by
        rw [List.drop_append]; simp
      obtain ⟨sub, hps, _⟩ := parseSubst_stmt st (render rest) hq heq
      have hci : ':' ∈ (c :: r) ++ ':' :: t1 := by simp
      simp only [parse1, hs, takeWhile_noColon hcol, hc, hci]
      rw [hdrop]
      simp [hps]

/-- A text has at most one reading. -/
theorem render_inj {dep : Bool} : ∀ {segs segs' : List Seg}, SegsWF dep segs → SegsWF dep segs' →
    render segs = render segs' → segs = segs' := by
  intro segs
  induction segs with
  | nil =>
    intro segs' _ h2 h
    cases segs' with
    | nil => rfl
    | cons g rest =>
      have := parse1_render h2
      rw [← h] at this
      simp [render, parse1] at this
  | cons g rest ih =>
    intro segs' h1 h2 h
    have p1 := parse1_render h1
    cases segs' with
    | nil => rw [h] at p1; simp [render, parse1] at p1
    | cons g' rest' =>
      have p2 := parse1_render h2
      rw [h, p2] at p1
      simp only [Option.some.injEq, Prod.mk.injEq] at p1
      have w1 : SegsWF dep rest := by
        rcases segsWF_inv h1 with ⟨_, rfl⟩ | ⟨_, _, h⟩ | ⟨_, _, h⟩
        · simp [SegsWF]
        · exact h
        · exact h
      have w2 : SegsWF dep rest' := by
        rcases segsWF_inv h2 with ⟨_, rfl⟩ | ⟨_, _, h⟩ | ⟨_, _, h⟩
        · simp [SegsWF]
        · exact h
        · exact h
      rw [p1.1, ih w1 w2 p1.2.symm]

theorem segsWF_tail {dep : Bool} {g : Seg} {rest : List Seg} (h : SegsWF dep (g :: rest)) :
    SegsWF dep rest := by
  rcases segsWF_inv h with ⟨_, rfl⟩ | ⟨_, _, h⟩ | ⟨_, _, h⟩
  · simp [SegsWF]
  · exact h
  · exact h

/-- The big-step semantics is deterministic. -/
theorem denotes_det {val : Str → Str} {eff : Str → Str → Str} {dep : Bool} {h : Nat} {segs : List Seg}
    {r : Str} (H : Denotes val eff dep h segs r) :
    ∀ {h' r'}, Denotes val eff dep h' segs r' → r = r' := by
  induction H with
  | nil => intro h' r' H'; cases H'; rfl
  | lit _ ih => intro h' r' H'; cases H' with | lit D => rw [ih D]
  | dollar _ ih => intro h' r' H'; cases H' with | dollar D => rw [ih D]
  | char w e _ _ ih1 ih2 =>
    intro h' r' H'
    cases H' with
    | char w' e' D1 D2 =>
      have := render_inj w w' (e.trans e'.symm)
      subst this
      rw [ih1 D1, ih2 D2]
  | ref w e _ _ ih1 ih2 =>
    intro h' r' H'
    cases H' with
    | ref w' e' D1 D2 =>
      have := render_inj w w' (e.trans e'.symm)
      subst this
      rw [ih1 D1, ih2 D2]
  | sub w e _ _ ih1 ih2 =>
    intro h' r' H'
    cases H' with
    | sub w' e' D1 D2 =>
      have := render_inj w w' (e.trans e'.symm)
      subst this
      rw [ih1 D1, ih2 D2]
  | fileChar _ ih => intro h' r' H'; cases H' with | fileChar D => rw [ih D]
  | fileParen _ ih => intro h' r' H'; cases H' with | fileParen D => rw [ih D]
  | depAt _ ih => intro h' r' H'; cases H' with | depAt D => rw [ih D]

/-- The value of macro `n` has a derivation of height `h`. -/
def HasDer (m : Macros) (dep : Bool) (n : Str) (h : Nat) : Prop :=
  ∃ vs r, SegsWF dep vs ∧ render vs = macroValue m n ∧ Denotes (macroValue m) substEffect dep h vs r

theorem exists_min {P : Nat → Prop} (n : Nat) (h : P n) : ∃ k, P k ∧ k ≤ n ∧ ∀ j, j < k → ¬ P j := by
  induction n using Nat.strongRecOn with
  | _ n ih =>
    by_cases hx : ∃ j, j < n ∧ P j
    · obtain ⟨j, hj, hp⟩ := hx
      obtain ⟨k, h1, h2, h3⟩ := ih j hj hp
      exact ⟨k, h1, by omega, h3⟩
    · exact ⟨n, h, Nat.le_refl _, fun j hj hp => hx ⟨j, hj, hp⟩⟩

/-- Everything the big-step semantics derives is computed by `expandU`, as long as no macro in use has
a shorter derivation. -/
theorem expandU_complete (m : Macros) (dep : Bool) (h : Nat) : ∀ (segs : List Seg) (r : Str)
    (used : List Str), SegsWF dep segs → Denotes (macroValue m) substEffect dep h segs r →
    (∀ u ∈ used, ∀ h', h' < h → ¬ HasDer m dep u h') →
    expandU m dep used (render segs) = .ok r := by
  induction h using Nat.strongRecOn with
  | _ h IH =>
    -- the nested call
    have nested : ∀ (n : Str) (used : List Str) (h0 : Nat) (vs : List Seg) (v : Str), h0 < h →
        SegsWF dep vs → render vs = macroValue m n →
        Denotes (macroValue m) substEffect dep h0 vs v →
        (∀ u ∈ used, ∀ h', h' < h → ¬ HasDer m dep u h') →
        n ∉ used ∧ expandU m dep (n :: used) (macroValue m n) = .ok v := by
      intro n used h0 vs v hh w e D hu
      have hd : HasDer m dep n h0 := ⟨vs, v, w, e, D⟩
      refine ⟨fun hm => hu n hm h0 hh hd, ?_⟩
      obtain ⟨k, ⟨vs', r', w', e', D'⟩, hk, hmin⟩ := exists_min h0 hd
      have := render_inj w w' (e.trans e'.symm)
      subst this
      have hv := denotes_det D D'
      subst hv
      rw [← e]
      apply IH k (by omega) vs v (n :: used) w D'
      intro u hmem h' hh'
      simp only [List.mem_cons] at hmem
      rcases hmem with rfl | hmem
      · exact hmin h' hh'
      · exact hu u hmem h' (by omega)
    intro segs
    induction segs with
    | nil => intro r used _ D _; cases D; simp [render]
    | cons g rest ih =>
      intro r used w D hu
      have hr : render (g :: rest) = g.render ++ render rest := by simp [render]
      rw [hr]
      have wt := segsWF_tail w
      rcases segsWF_inv w with ⟨rfl, rfl⟩ | ⟨rfl, hdo, _⟩ | ⟨hnd, hg, _⟩
      · cases D with
        | lit D => cases D; simp [render, Seg.render]
      · cases D with
        | dollar D =>
          have e : Seg.dollar.render ++ render rest = '$' :: '$' :: render rest := rfl
          rw [e, expandU_dollar m dep used _ hdo, ih _ used wt D hu]
          rfl
      · cases D with
        | lit D =>
          rename_i c r
          have e : (Seg.lit c).render ++ render rest = c :: render rest := rfl
          rw [e, expandU_lit m dep used c _ hg, ih _ used wt D hu]
          rfl
        | dollar D => exact absurd rfl hnd
        | fileChar D =>
          rename_i c r
          have e : (Seg.fileChar c).render ++ render rest = '$' :: c :: render rest := rfl
          rw [e, expandU_fileChar m dep used c _ hg, ih _ used wt D hu]
          rfl
        | fileParen D =>
          rename_i t r
          have e : (Seg.fileParen t).render ++ render rest = '$' :: '(' :: (t ++ ')' :: render rest) := by
            simp [Seg.render]
          rw [e, expandU_fileParen m dep used t _ hg.1 hg.2, ih _ used wt D hu]
          rfl
        | depAt D =>
          rename_i p r
          simp only [Seg.WF] at hg
          subst hg
          cases p
          · have e : (Seg.depAt false).render ++ render rest = '$' :: '$' :: '@' :: render rest := rfl
            rw [e, expandU_depAt, ih _ used wt D hu]
            rfl
          · have e : (Seg.depAt true).render ++ render rest = '$' :: '$' :: '(' :: '@' :: render rest := rfl
            rw [e, expandU_depAtP, ih _ used wt D hu]
            rfl
        | char w1 e1 D1 D2 =>
          rename_i h0 c r vs v
          have e : (Seg.char c).render ++ render rest = '$' :: c :: render rest := rfl
          obtain ⟨hnu, hv⟩ := nested [c] used h0 vs v (by omega) w1 e1 D1 hu
          rw [e, expandU_char m dep used c _ hg, ih _ used wt D2 hu, hv]
          simp [hnu, bind, Except.bind]
        | ref w1 e1 D1 D2 =>
          rename_i h0 n r vs v
          have e : (Seg.ref n).render ++ render rest = '$' :: '(' :: (n ++ ')' :: render rest) := by
            simp [Seg.render]
          obtain ⟨hnu, hv⟩ := nested n used h0 vs v (by omega) w1 e1 D1 hu
          rw [e, expandU_ref m dep used n _ hg, ih _ used wt D2 hu, hv]
          simp [hnu, bind, Except.bind]
        | sub w1 e1 D1 D2 =>
          rename_i h0 n st r vs v
          have e : (Seg.sub n st).render ++ render rest =
              '$' :: '(' :: (n ++ ':' :: (st ++ ')' :: render rest)) := by
            simp [Seg.render]
          obtain ⟨hn, heq, hq⟩ := hg
          obtain ⟨hnu, hv⟩ := nested n used h0 vs v (by omega) w1 e1 D1 hu
          obtain ⟨sub, hps, heff⟩ := parseSubst_stmt st (render rest) hq heq
          rw [e, expandU_sub m dep used n _ hn (by simp), hv, hps]
          simp only [hnu, if_false, bind, Except.bind]
          rw [ih _ used wt D2 hu]
          simp [heff]

/-! ### Reachability -/

theorem refersTo_of_tail {dep : Bool} {g : Seg} {rest : List Seg} {n : Str}
    (w : SegsWF dep (g :: rest)) (h : RefersTo dep (render rest) n) :
    RefersTo dep (render (g :: rest)) n := by
  obtain ⟨segs, w', e, g', hg', hn⟩ := h
  have := render_inj w' (segsWF_tail w) e
  subst this
  exact ⟨g :: segs, w, rfl, g', List.mem_cons_of_mem _ hg', hn⟩

theorem reaches_of_tail {val : Str → Str} {dep : Bool} {g : Seg} {rest : List Seg} {n : Str}
    (w : SegsWF dep (g :: rest)) (h : MReaches val dep (render rest) n) :
    MReaches val dep (render (g :: rest)) n := by
  cases h with
  | direct h => exact .direct (refersTo_of_tail w h)
  | step h1 h2 => exact .step (refersTo_of_tail w h1) h2

/-- A derivation contains smaller derivations for all macros directly referred to. -/
theorem denotes_refs {m : Macros} {dep : Bool} {h : Nat} {segs : List Seg} {r : Str}
    (D : Denotes (macroValue m) substEffect dep h segs r) :
    ∀ g ∈ segs, ∀ n ∈ g.refs, ∃ h', h' < h ∧ HasDer m dep n h' := by
  induction D with
  | nil => intro g hg; cases hg
  | lit _ ih | dollar _ ih | fileChar _ ih | fileParen _ ih | depAt _ ih =>
    intro g hg n hn
    simp only [List.mem_cons] at hg
    rcases hg with rfl | hg
    · simp [Seg.refs] at hn
    · exact ih g hg n hn
  | char w e D1 _ _ ih | ref w e D1 _ _ ih | sub w e D1 _ _ ih =>
    intro g hg n hn
    simp only [List.mem_cons] at hg
    rcases hg with rfl | hg
    · simp only [Seg.refs, List.mem_cons, List.not_mem_nil, or_false] at hn
      subst hn
      exact ⟨_, Nat.lt_succ_self _, _, _, w, e, D1⟩
    · exact ih g hg n hn

theorem reaches_hasDer {m : Macros} {dep : Bool} {s n : Str} (hr : MReaches (macroValue m) dep s n) :
    ∀ {h segs r}, SegsWF dep segs → render segs = s →
      Denotes (macroValue m) substEffect dep h segs r → ∃ h', h' < h ∧ HasDer m dep n h' := by
  induction hr with
  | direct hr =>
    intro h segs r w e D
    obtain ⟨segs', w', e', g, hg, hn⟩ := hr
    have := render_inj w w' (e.trans e'.symm)
    subst this
    exact denotes_refs D g hg _ hn
  | step hr _ ih =>
    intro h segs r w e D
    obtain ⟨segs', w', e', g, hg, hn⟩ := hr
    have := render_inj w w' (e.trans e'.symm)
    subst this
    obtain ⟨h1, hh1, vs, r1, w1, e1, D1⟩ := denotes_refs D g hg _ hn
    obtain ⟨h2, hh2, hd⟩ := ih w1 e1 D1
    exact ⟨h2, by omega, hd⟩

/-- No derivation for a macro that reaches itself. -/
theorem hasDer_acyclic {m : Macros} {dep : Bool} {n : Str} {h : Nat} (hd : HasDer m dep n h) :
    ¬ MReaches (macroValue m) dep (macroValue m n) n := by
  intro hr
  obtain ⟨k, ⟨vs, r, w, e, D⟩, _, hmin⟩ := exists_min h hd
  obtain ⟨h', hh', hd'⟩ := reaches_hasDer hr w e D
  exact hmin h' hh' hd'

/-- Well-formed, acyclic texts expand successfully. -/
theorem expandU_succeeds (m : Macros) (dep : Bool) (k : Nat) : ∀ (used : List Str) (segs : List Seg),
    need m used (render segs) ≤ k → SegsWF dep segs →
    (∀ n, MReaches (macroValue m) dep (render segs) n →
      WellFormed dep (macroValue m n) ∧ ¬ MReaches (macroValue m) dep (macroValue m n) n) →
    (∀ u ∈ used, ¬ MReaches (macroValue m) dep (render segs) u) →
    ∃ r, expandU m dep used (render segs) = .ok r := by
  induction k with
  | zero => intro used segs hk; simp [need] at hk
  | succ k ih =>
    intro used segs hk w hacy hu
    cases segs with
    | nil => exact ⟨[], by simp [render]⟩
    | cons g rest =>
      have hr : render (g :: rest) = g.render ++ render rest := by simp [render]
      have wt := segsWF_tail w
      have hpos : 0 < g.render.length := by
        cases g <;> simp [Seg.render]
        rename_i p; cases p <;> simp
      have hlen : (render (g :: rest)).length = g.render.length + (render rest).length := by
        rw [hr]; simp
      have hnr : need m used (render rest) ≤ k := by
        simp only [need, hlen] at hk ⊢; omega
      obtain ⟨r, hrest⟩ := ih used rest hnr wt
        (fun n hn => hacy n (reaches_of_tail w hn)) (fun u hm hx => hu u hm (reaches_of_tail w hx))
      have nested : ∀ n ∈ g.refs, n ∉ used ∧ ∃ v, expandU m dep (n :: used) (macroValue m n) = .ok v := by
        intro n hn
        have hrf : RefersTo dep (render (g :: rest)) n := ⟨g :: rest, w, rfl, g, by simp, hn⟩
        have hnu : n ∉ used := fun hm => hu n hm (.direct hrf)
        refine ⟨hnu, ?_⟩
        obtain ⟨⟨vs, wv, ev⟩, hac⟩ := hacy n (.direct hrf)
        have hnv := need_value m used n hnu
        rw [← ev]
        apply ih (n :: used) vs
        · rw [ev]
          have : unusedSize m used ≤ k - 1 ∧ 1 ≤ k := by
            simp only [need, hlen] at hk; constructor <;> cases g <;> simp [Seg.refs] at hn <;>
              simp [Seg.render] at hk <;> omega
          omega
        · exact wv
        · intro x hx
          rw [ev] at hx
          exact hacy x (.step hrf hx)
        · intro u hm hx
          rw [ev] at hx
          simp only [List.mem_cons] at hm
          rcases hm with rfl | hm
          · exact hac hx
          · exact hu u hm (.step hrf hx)
      rw [hr]
      rcases segsWF_inv w with ⟨rfl, rfl⟩ | ⟨rfl, hdo, _⟩ | ⟨hnd, hg, _⟩
      · exact ⟨['$'], by simp [render, Seg.render]⟩
      · have e : Seg.dollar.render ++ render rest = '$' :: '$' :: render rest := rfl
        rw [e, expandU_dollar m dep used _ hdo, hrest]
        exact ⟨_, rfl⟩
      · cases g with
        | lit c =>
          have e : (Seg.lit c).render ++ render rest = c :: render rest := rfl
          rw [e, expandU_lit m dep used c _ hg, hrest]
          exact ⟨_, rfl⟩
        | dollar => exact absurd rfl hnd
        | fileChar c =>
          have e : (Seg.fileChar c).render ++ render rest = '$' :: c :: render rest := rfl
          rw [e, expandU_fileChar m dep used c _ hg, hrest]
          exact ⟨_, rfl⟩
        | fileParen t =>
          have e : (Seg.fileParen t).render ++ render rest = '$' :: '(' :: (t ++ ')' :: render rest) := by
            simp [Seg.render]
          rw [e, expandU_fileParen m dep used t _ hg.1 hg.2, hrest]
          exact ⟨_, rfl⟩
        | depAt p =>
          simp only [Seg.WF] at hg
          subst hg
          cases p
          · have e : (Seg.depAt false).render ++ render rest = '$' :: '$' :: '@' :: render rest := rfl
            rw [e, expandU_depAt, hrest]
            exact ⟨_, rfl⟩
          · have e : (Seg.depAt true).render ++ render rest = '$' :: '$' :: '(' :: '@' :: render rest := rfl
            rw [e, expandU_depAtP, hrest]
            exact ⟨_, rfl⟩
        | char c =>
          have e : (Seg.char c).render ++ render rest = '$' :: c :: render rest := rfl
          obtain ⟨hnu, v, hv⟩ := nested [c] (by simp [Seg.refs])
          rw [e, expandU_char m dep used c _ hg, hrest, hv]
          exact ⟨v ++ r, by simp [hnu, bind, Except.bind]⟩
        | ref n =>
          have e : (Seg.ref n).render ++ render rest = '$' :: '(' :: (n ++ ')' :: render rest) := by
            simp [Seg.render]
          obtain ⟨hnu, v, hv⟩ := nested n (by simp [Seg.refs])
          rw [e, expandU_ref m dep used n _ hg, hrest, hv]
          exact ⟨v ++ r, by simp [hnu, bind, Except.bind]⟩
        | sub n st =>
          have e : (Seg.sub n st).render ++ render rest =
              '$' :: '(' :: (n ++ ':' :: (st ++ ')' :: render rest)) := by
            simp [Seg.render]
          obtain ⟨hn, heq, hq⟩ := hg
          obtain ⟨hnu, v, hv⟩ := nested n (by simp [Seg.refs])
          obtain ⟨sub, hps, heff⟩ := parseSubst_stmt st (render rest) hq heq
          rw [e, expandU_sub m dep used n _ hn (by simp), hv, hps]
          exact ⟨applySubst sub v ++ r, by simp [hnu, bind, Except.bind, hrest]⟩

end Jom
