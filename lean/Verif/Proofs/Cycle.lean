/- Correctness of the cycle check. -/
import Verif.Proofs.GraphBuild
import Verif.Model.CycleCheck

namespace Jom.Graph

open Relation

/-- `c` is a looked-up dependent of `x`. -/
def Edge (look : Nat → List (Option Nat)) (x c : Nat) : Prop := some c ∈ look x

/-- Invariant of the marks: no cycle can be reached from the second set, and the sets are disjoint. -/
structure MarkInv (look : Nat → List (Option Nat)) (s : List Nat × List Nat) : Prop where
  acyclic : ∀ b ∈ s.2, ∀ x, ReflTransGen (Edge look) b x → ¬ TransGen (Edge look) x x
  disj : ∀ b ∈ s.1, b ∉ s.2
  nodup : s.1.Nodup

/-- What a call of the check does. -/
def CycOk (look : Nat → List (Option Nat))
    (recur : Option Nat → List Nat × List Nat → Except CycleErr (List Nat × List Nat)) : Prop :=
  ∀ d s s', MarkInv look s → recur d s = .ok s' →
    MarkInv look s' ∧ s'.1 = s.1 ∧ (∀ b ∈ s.2, b ∈ s'.2) ∧ ∀ t, d = some t → t ∈ s'.2

theorem cycleLoop_ok {look recur} (hr : CycOk look recur) :
    ∀ ds s s', MarkInv look s → cycleLoop recur ds s = .ok s' →
      MarkInv look s' ∧ s'.1 = s.1 ∧ (∀ b ∈ s.2, b ∈ s'.2) ∧ ∀ t, some t ∈ ds → t ∈ s'.2 := by
  intro ds
  induction ds with
  | nil =>
    intro s s' hs h
    simp only [cycleLoop, Except.ok.injEq] at h; subst h
    exact ⟨hs, rfl, fun _ h => h, by simp⟩
  | cons d ds ih =>
    intro s s' hs h
    simp only [cycleLoop, bind, Except.bind] at h
    cases hd : recur d s with
    | error e => rw [hd] at h; simp at h
    | ok s1 =>
      rw [hd] at h
      obtain ⟨a, b, c, e⟩ := hr d s s1 hs hd
      obtain ⟨a', b', c', e'⟩ := ih s1 s' a h
      refine ⟨a', by rw [b', b], fun x hx => c' x (c x hx), ?_⟩
      intro t ht
      rcases List.mem_cons.1 ht with ht | ht
      · exact c' t (e t ht.symm)
      · exact e' t ht

theorem checkForCycles_ok (look : Nat → List (Option Nat)) :
    ∀ fuel, CycOk look (checkForCycles look fuel) := by
  intro fuel
  induction fuel with
  | zero =>
    intro d s s' hs h
    cases d with
    | none => simp only [checkForCycles, Except.ok.injEq] at h; subst h; exact ⟨hs, rfl, fun _ h => h, by simp⟩
    | some t => simp [checkForCycles] at h
  | succ fuel ih =>
    intro d s s' hs h
    cases d with
    | none => simp only [checkForCycles, Except.ok.injEq] at h; subst h; exact ⟨hs, rfl, fun _ h => h, by simp⟩
    | some t =>
      obtain ⟨vis, noc⟩ := s
      simp only [checkForCycles] at h
      split at h
      · next hb =>
        simp only [Except.ok.injEq] at h; subst h
        exact ⟨hs, rfl, fun _ h => h, by rintro _ ⟨⟩; exact hb⟩
      · next hb =>
        split at h
        · simp at h
        · next hv =>
          simp only [bind, Except.bind] at h
          cases hl : cycleLoop (checkForCycles look fuel) (look t).reverse (t :: vis, noc) with
          | error e => rw [hl] at h; simp at h
          | ok s1 =>
            rw [hl] at h
            obtain ⟨v1, n1⟩ := s1
            simp only [pure, Except.pure, Except.ok.injEq] at h
            subst h
            have hs1 : MarkInv look (t :: vis, noc) := by
              refine ⟨hs.acyclic, ?_, ?_⟩
              · intro b hbm
                rcases List.mem_cons.1 hbm with rfl | hbm
                · exact hb
                · exact hs.disj b hbm
              · exact List.nodup_cons.2 ⟨hv, hs.nodup⟩
            obtain ⟨a, b, c, e⟩ := cycleLoop_ok ih _ _ _ hs1 hl
            simp only at b c e
            subst b
            have htn : t ∉ n1 := a.disj t (List.mem_cons_self ..)
            have hsucc : ∀ c, Edge look t c → c ∈ n1 := fun c hc => e c (by simpa [Edge] using hc)
            have hvf : (t :: vis).filter (· ≠ t) = vis := by
              simp only [ne_eq, decide_not, List.filter_cons, decide_true, Bool.not_true]
              exact List.filter_eq_self.2 (by
                intro x hx; simp only [Bool.not_eq_eq_eq_not, Bool.not_true, decide_eq_false_iff_not]
                rintro rfl; exact hv hx)
            refine ⟨⟨?_, ?_, ?_⟩, hvf, ?_, ?_⟩
            · intro b hb' x hx hcyc
              rcases List.mem_cons.1 hb' with rfl | hb'
              · rcases ReflTransGen.cases_head hx with rfl | ⟨y, hby, hyx⟩
                · rcases TransGen.head'_iff.1 hcyc with ⟨y, hby, hyb⟩
                  exact a.acyclic y (hsucc y hby) _ hyb hcyc
                · exact a.acyclic y (hsucc y hby) x hyx hcyc
              · exact a.acyclic b hb' x hx hcyc
            · intro x hx hxn
              simp only [hvf] at hx
              rcases List.mem_cons.1 hxn with rfl | hxn
              · exact hv hx
              · exact a.disj x (List.mem_cons_of_mem _ hx) hxn
            · simp only [hvf]; exact hs.nodup
            · intro x hx; exact List.mem_cons_of_mem _ (c x hx)
            · rintro _ ⟨⟩; exact List.mem_cons_self ..

/-- A reported cycle is a real one. -/
def CycErr (look : Nat → List (Option Nat))
    (recur : Option Nat → List Nat × List Nat → Except CycleErr (List Nat × List Nat)) : Prop :=
  ∀ t s x, (∀ g ∈ s.1, TransGen (Edge look) g t) → recur (some t) s = .error (.cycle x) →
    MarkInv look s → ReflTransGen (Edge look) t x ∧ TransGen (Edge look) x x

theorem cycleLoop_err {look recur} (hn : ∀ s, recur none s = .ok s) (hok : CycOk look recur) (hr : CycErr look recur) {t : Nat} :
    ∀ ds s x, (∀ c, some c ∈ ds → Edge look t c) → (∀ g ∈ s.1, ReflTransGen (Edge look) g t) →
      MarkInv look s → cycleLoop recur ds s = .error (.cycle x) →
      ReflTransGen (Edge look) t x ∧ TransGen (Edge look) x x := by
  intro ds
  induction ds with
  | nil => intro s x _ _ _ h; simp [cycleLoop] at h
  | cons d ds ih =>
    intro s x hds hg hs h
    simp only [cycleLoop, bind, Except.bind] at h
    have hds' : ∀ c, some c ∈ ds → Edge look t c := fun c hc => hds c (List.mem_cons_of_mem _ hc)
    cases hd : recur d s with
    | error e =>
      rw [hd] at h
      simp only [Except.error.injEq] at h
      subst h
      cases d with
      | none => rw [hn] at hd; simp at hd
      | some c =>
        have he := hds c (List.mem_cons_self ..)
        obtain ⟨p, q⟩ := hr c s x (fun g hgm => TransGen.tail' (hg g hgm) he) hd hs
        exact ⟨ReflTransGen.head he p, q⟩
    | ok s1 =>
      rw [hd] at h
      obtain ⟨a, b, _, _⟩ := hok d s s1 hs hd
      exact ih s1 x hds' (by rw [b]; exact hg) a h

theorem checkForCycles_none (look : Nat → List (Option Nat)) (fuel : Nat) (s : List Nat × List Nat) :
    checkForCycles look fuel none s = .ok s := by
  cases fuel <;> rfl

theorem checkForCycles_err (look : Nat → List (Option Nat)) :
    ∀ fuel, CycErr look (checkForCycles look fuel) := by
  intro fuel
  induction fuel with
  | zero => intro t s x _ h; simp [checkForCycles] at h
  | succ fuel ih =>
    intro t s x hg h hs
    obtain ⟨vis, noc⟩ := s
    simp only [checkForCycles] at h
    split at h
    · simp at h
    · next hb =>
      split at h
      · next hv =>
        simp only [Except.error.injEq, CycleErr.cycle.injEq] at h
        subst h
        exact ⟨ReflTransGen.refl, hg t hv⟩
      · next hv =>
        simp only [bind, Except.bind] at h
        cases hl : cycleLoop (checkForCycles look fuel) (look t).reverse (t :: vis, noc) with
        | ok s1 => rw [hl] at h; simp [pure, Except.pure] at h
        | error e =>
          rw [hl] at h
          simp only [Except.error.injEq] at h
          subst h
          refine cycleLoop_err (checkForCycles_none look fuel) (checkForCycles_ok look fuel) ih _ _ _ ?_ ?_ ?_ hl
          · intro c hc; simpa [Edge] using hc
          · intro g hgm
            rcases List.mem_cons.1 hgm with rfl | hgm
            · exact ReflTransGen.refl
            · exact (hg g hgm).to_reflTransGen
          · refine ⟨hs.acyclic, ?_, ?_⟩
            · intro b hbm
              rcases List.mem_cons.1 hbm with rfl | hbm
              · exact hb
              · exact hs.disj b hbm
            · exact List.nodup_cons.2 ⟨hv, hs.nodup⟩

theorem cycleLoop_fuel {look recur} {U : List Nat} {m : Nat} (hok : CycOk look recur)
    (hr : ∀ d, (∀ t, d = some t → t ∈ U) → ∀ s : List Nat × List Nat, MarkInv look s → rest U s.1 < m →
      recur d s ≠ .error .fuel) :
    ∀ (ds : List (Option Nat)) (s : List Nat × List Nat), (∀ t, some t ∈ ds → t ∈ U) → MarkInv look s →
      rest U s.1 < m → cycleLoop recur ds s ≠ .error .fuel := by
  intro ds
  induction ds with
  | nil => intro s _ _ _; simp [cycleLoop]
  | cons d ds ih =>
    intro s hds hs hlt
    simp only [cycleLoop, bind, Except.bind]
    have h1 := hr d (fun t ht => hds t (by rw [ht]; exact List.mem_cons_self ..)) s hs hlt
    cases hd : recur d s with
    | error e => rw [hd] at h1; simpa using h1
    | ok s1 =>
      obtain ⟨a, b, _, _⟩ := hok d s s1 hs hd
      exact ih s1 (fun t ht => hds t (List.mem_cons_of_mem _ ht)) a (by rw [b]; exact hlt)

theorem checkForCycles_fuel (look : Nat → List (Option Nat)) {U : List Nat}
    (hU : ∀ x ∈ U, ∀ c, Edge look x c → c ∈ U) :
    ∀ fuel, ∀ d, (∀ t, d = some t → t ∈ U) → ∀ s : List Nat × List Nat, MarkInv look s →
      rest U s.1 < fuel → checkForCycles look fuel d s ≠ .error .fuel := by
  intro fuel
  induction fuel with
  | zero => intro _ _ s _ h; omega
  | succ fuel ih =>
    intro d hd s hs hlt
    cases d with
    | none => rw [checkForCycles_none]; simp
    | some t =>
      have ht := hd t rfl
      obtain ⟨vis, noc⟩ := s
      simp only [checkForCycles]
      split
      · simp
      · next hb =>
        split
        · simp
        · next hv =>
          have hlt' : rest U (t :: vis) < fuel := by
            have := rest_cons (U := U) ht hv
            simp only at hlt; omega
          have hs1 : MarkInv look (t :: vis, noc) := by
            refine ⟨hs.acyclic, ?_, ?_⟩
            · intro b hbm
              rcases List.mem_cons.1 hbm with rfl | hbm
              · exact hb
              · exact hs.disj b hbm
            · exact List.nodup_cons.2 ⟨hv, hs.nodup⟩
          have := cycleLoop_fuel (checkForCycles_ok look fuel) ih (look t).reverse (t :: vis, noc)
            (fun c hc => hU t ht c (by simpa [Edge] using hc)) hs1 hlt'
          simp only [bind, Except.bind]
          cases hl : cycleLoop (checkForCycles look fuel) (look t).reverse (t :: vis, noc) with
          | error e => rw [hl] at this; simpa using this
          | ok r => simp [pure, Except.pure]

theorem markInv_nil (look : Nat → List (Option Nat)) : MarkInv look ([], []) := by
  constructor <;> simp

end Jom.Graph
